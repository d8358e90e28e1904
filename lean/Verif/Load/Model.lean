/-!
# Model: the bulk loader

Rows put into a loader are collected in row sets, each row set is sorted and written to a temporary
file ("run"), the runs are merged with a priority queue in as many passes as needed, and the merged
rows are written as a tree, leaves first.

ft/loader/loader.cc, ft/loader/pqueue.cc.

What is left out, for the whole file: reading and writing of the files (a run is the list of its rows;
the format on disk, compression and i/o errors are not modelled), memory exhaustion, the poll function and
the progress numbers (except for the number of passes, by which is divided), the index of the dictionary
among several.  Nodes of the tree are held directly, not by block number.  Integers are unbounded.
-/
set_option autoImplicit false

namespace Verif.Load

/-- A row: key and value. -/
abbrev Row (K V : Type) := K × V

/-- Error codes a loader function returns.  `exist r`: DB_KEYEXIST, with the row handed to
`ft_loader_set_error` (callbacks.cc 84–103, the first one stays).  `inval`: EINVAL (a key or value too
large, a put after an error).  `gen c`: the code of the caller's row generator.  `full`: `pqueue_insert`
returns 1.  `short`: end of file in reading pivots. -/
inductive Err (K V : Type)
  | exist (r : Row K V) | inval | gen (c : Int) | full | short
deriving DecidableEq, Repr

/-- Result of a function: a value, an error code, or a failed assertion (`invariant`, always compiled in,
portability/toku_assert.h 120). -/
inductive R (K V : Type) (α : Type)
  | ok (a : α) | err (e : Err K V) | crash
deriving DecidableEq, Repr

/-- The settings of a loader for one destination dictionary.  `cmp`: the comparison function.  `klen`,
`vlen`: sizes in bytes.  `les`: `ft_loader_leafentry_size` (loader.cc 1192–1199) for the loader's xid.
`klimit`, `vlimit`: `toku_ft_get_maximum_advised_key_value_lengths`.  `ebudget`:
`memory_per_rowset_during_extract` (405–425).  `mbudget`: `memory_per_rowset_during_merge` (480–487) as a
function of the number of files.  `fin`, `early`: the two limits on the files merged at once (`merge_fanin`
471–478, or 4: 2028–2029).  `thr`: the threshold 10000 of `merge_row_arrays` (1456).  `gen`: the
rows of the dictionary that belong to a row put (`generate_row_for_put`, or the row itself: 1236–1256).
`node`: target size of a node. -/
structure Env (K V : Type) where
  cmp : K → K → Int
  klen : K → Nat
  vlen : V → Nat
  les : Row K V → Nat
  klimit : Nat
  vlimit : Nat
  ebudget : Nat
  mbudget : Nat → Nat
  fin : Nat
  early : Nat
  thr : Nat
  gen : Row K V → Except Int (List (Row K V))
  node : Nat

variable {K V : Type}

/-! ## Sorting a row set -/

/-- `merge_row_arrays_base`, loader.cc 1341–1386.  The first argument counts the steps of the loop (`an + bn`). -/
def mergeLoop (cmp : K → K → Int) : Nat → List (Row K V) → List (Row K V) → R K V (List (Row K V))
  | _, [], b => .ok b
  | _, a, [] => .ok a
  | 0, _, _ => .crash
  | n + 1, x :: a, y :: b =>
    let c := cmp x.1 y.1
    if c = 0 then .err (.exist x)
    else if c < 0 then
      match mergeLoop cmp n a (y :: b) with
      | .ok d => .ok (x :: d)
      | .err e => .err e
      | .crash => .crash
    else
      match mergeLoop cmp n (x :: a) b with
      | .ok d => .ok (y :: d)
      | .err e => .err e
      | .crash => .crash

/-- `merge_row_arrays_base`, loader.cc 1341–1386. -/
def mergeBase (cmp : K → K → Int) (a b : List (Row K V)) : R K V (List (Row K V)) :=
  mergeLoop cmp (a.length + b.length) a b

/-- `binary_search`, loader.cc 1388–1438: where `key` belongs in the sorted array `a`.  The first argument
counts the calls (`an + 1` are enough). -/
def binSearch (cmp : K → K → Int) (key : K) : Nat → List (Row K V) → Nat → R K V Nat
  | 0, _, _ => .crash
  | n + 1, a, before =>
    if a.length = 0 then .ok before
    else
      match a[a.length / 2]? with
      | none => .crash
      | some x =>
        let c := cmp key x.1
        if c = 0 then .err (.exist x)
        else if c < 0 then
          if a.length = 1 then .ok before
          else binSearch cmp key n (a.take (a.length / 2)) before
        else
          if a.length = 1 then .ok (before + 1)
          else binSearch cmp key n (a.drop (a.length / 2)) (before + a.length / 2)

/-- End of `merge_row_arrays`, loader.cc 1472–1475: both halves are merged; the first error counts. -/
def both : R K V (List (Row K V)) → R K V (List (Row K V)) → R K V (List (Row K V))
  | .ok a, .ok b => .ok (a ++ b)
  | .ok _, r => r
  | .err _, .crash => .crash
  | r, _ => r

/-- `merge_row_arrays`, loader.cc 1443–1476: merge two sorted arrays, by halves if they are long.  The first
argument counts the calls. -/
def mergeRows (cmp : K → K → Int) (thr : Nat) : Nat → List (Row K V) → List (Row K V) → R K V (List (Row K V))
  | 0, _, _ => .crash
  | n + 1, a', b' =>
    if a'.length + b'.length < thr then mergeBase cmp a' b'
    else
      let a := if a'.length < b'.length then b' else a'
      let b := if a'.length < b'.length then a' else b'
      match a[a.length / 2]? with
      | none => .crash
      | some x =>
        match binSearch cmp x.1 (b.length + 1) b 0 with
        | .err e => .err e
        | .crash => .crash
        | .ok b2 =>
          both (mergeRows cmp thr n (a.take (a.length / 2)) (b.take b2))
            (mergeRows cmp thr n (a.drop (a.length / 2)) (b.drop b2))

/-- `mergesort_row_array`, loader.cc 1478–1510.  The first argument counts the depth of calls. -/
def mergeSort (cmp : K → K → Int) (thr : Nat) : Nat → List (Row K V) → R K V (List (Row K V))
  | 0, _ => .crash
  | n + 1, l =>
    if l.length ≤ 1 then .ok l
    else
      match mergeSort cmp thr n (l.take (l.length / 2)), mergeSort cmp thr n (l.drop (l.length / 2)) with
      | .crash, _ => .crash
      | _, .crash => .crash
      | .err e, _ => .err e
      | _, .err e => .err e
      | .ok a, .ok b => mergeRows cmp thr (a.length + b.length + 1) a b

/-- `sort_rows`, loader.cc 1517–1526. -/
def sortRows (e : Env K V) (l : List (Row K V)) : R K V (List (Row K V)) :=
  mergeSort e.cmp e.thr (l.length + 1) l

/-! ## Runs -/

/-- `struct merge_fileset`: the files, and the largest key of the last file if more rows may be appended to
it (`have_sorted_output`, `prev_key`; `sorted_output` is the last file). -/
structure FS (K V : Type) where
  files : List (List (Row K V))
  prev : Option K
deriving DecidableEq, Repr

/-- `sort_and_write_rows`, loader.cc 1648–1715. -/
def sortAndWrite (e : Env K V) (rows : List (Row K V)) (fs : FS K V) : R K V (FS K V) :=
  if rows.length = 0 then .ok fs
  else
    match sortRows e rows with
    | .err x => .err x
    | .crash => .crash
    | .ok s =>
      match s.head?, s.getLast? with
      | some lo, some hi =>
        match fs.prev with
        | some p =>
          if e.cmp p lo.1 < 0 then
            match fs.files.getLast? with
            | some f => .ok ⟨fs.files.dropLast ++ [f ++ s], some hi.1⟩
            | none => .crash
          else .ok ⟨fs.files ++ [s], some hi.1⟩
        | none => .ok ⟨fs.files ++ [s], some hi.1⟩
      | _, _ => .crash

/-- Bytes of the rows of a row set (`n_bytes`, `add_row`, loader.cc 1004–1046). -/
def bytes (e : Env K V) (rows : List (Row K V)) : Nat := (rows.map (fun r => e.klen r.1 + e.vlen r.2)).sum

/-- `row_wont_fit`, loader.cc 995–1002 (16 bytes for each `struct row`, loader-internal.h). -/
def wontFit (e : Env K V) (budget : Nat) (rows : List (Row K V)) (size : Nat) : Bool :=
  budget < rows.length * 16 + bytes e rows + size

/-- What the extractor holds for the dictionary: `bl->rows[i]`, `bl->fs[i]`, `bl->extracted_datasizes[i]`. -/
structure Ext (K V : Type) where
  rows : List (Row K V)
  fs : FS K V
  size : Nat
deriving DecidableEq, Repr

/-- One row of the dictionary in `process_primary_rows_internal`, loader.cc 1257–1294.  After a failed
`sort_and_write_rows` the row set is empty again (1283). -/
def Ext.add (e : Env K V) (x : Ext K V) (r : Row K V) : R K V (Ext K V) :=
  if e.klimit < e.klen r.1 then .err .inval
  else if e.vlimit < e.vlen r.2 then .err .inval
  else
    let x := { x with size := x.size + e.les r }
    if wontFit e e.ebudget x.rows (e.klen r.1 + e.vlen r.2) then
      match sortAndWrite e x.rows x.fs with
      | .ok fs => .ok { x with rows := [r], fs := fs }
      | .err c => .err c
      | .crash => .crash
    else .ok { x with rows := x.rows ++ [r] }

/-- The rows generated for one row put, loader.cc 1257–1294. -/
def Ext.addAll (e : Env K V) (x : Ext K V) : List (Row K V) → R K V (Ext K V)
  | [] => .ok x
  | r :: l =>
    match x.add e r with
    | .ok x => x.addAll e l
    | .err c => .err c
    | .crash => .crash

/-- `process_primary_rows_internal`, loader.cc 1201–1315, for one dictionary: stops at the first error. -/
def Ext.process (e : Env K V) (x : Ext K V) : List (Row K V) → R K V (Ext K V)
  | [] => .ok x
  | r :: l =>
    match e.gen r with
    | .error c => .err (.gen c)
    | .ok g =>
      match x.addAll e g with
      | .ok x => x.process e l
      | .err c => .err c
      | .crash => .crash

/-- `finish_primary_rows_internal`, loader.cc 1050–1071. -/
def Ext.finish (e : Env K V) (x : Ext K V) : R K V (Ext K V) :=
  match sortAndWrite e x.rows x.fs with
  | .ok fs => .ok { x with rows := [], fs := fs }
  | .err c => .err c
  | .crash => .crash

/-! ## The priority queue -/

/-- A node of the queue: the row at the front of a source, and the number of the source. -/
abbrev Node (K V : Type) := Row K V × Nat

/-- `pqueue_t`: `d[1..size-1]` (element 0 isn't used, so `d[i]` is the element `i - 1` of the list), `avail`, and
`dup_error` with the row it was reported for first. -/
structure PQ (K V : Type) where
  d : List (Node K V)
  avail : Nat
  dup : Option (Row K V)
deriving DecidableEq, Repr

/-- `pqueue_compare`, pqueue.cc 95–104: is `next` not before `curr`?  Also notes equality. -/
def pqCompare (cmp : K → K → Int) (dup : Option (Row K V)) (next : Row K V) (curr : K) : Bool × Option (Row K V) :=
  let r := cmp next.1 curr
  (decide (-1 < r), if r = 0 then (match dup with | none => some next | some x => some x) else dup)

/-- `pqueue_bubble_up`, pqueue.cc 106–121, with the hole at `i`.  The first argument counts the steps.
`none`: an access outside the array. -/
def bubbleUp (cmp : K → K → Int) (m : Node K V) :
    Nat → List (Node K V) → Nat → Option (Row K V) → Option (List (Node K V) × Option (Row K V))
  | 0, _, _, _ => none
  | n + 1, d, i, dup =>
    if 1 < i then
      match d[i / 2 - 1]? with
      | none => none
      | some p =>
        let c := pqCompare cmp dup p.1 m.1.1
        if c.1 then bubbleUp cmp m n (d.set (i - 1) p) (i / 2) c.2
        else some (d.set (i - 1) m, c.2)
    else some (d.set (i - 1) m, dup)

/-- `pqueue_maxchild`, pqueue.cc 124–137: the child with the smaller key, 0 if there is none. -/
def maxChild (cmp : K → K → Int) (d : List (Node K V)) (i : Nat) (dup : Option (Row K V)) :
    Option (Nat × Option (Row K V)) :=
  let c := 2 * i
  if d.length + 1 ≤ c then some (0, dup)
  else if c + 1 < d.length + 1 then
    match d[c - 1]?, d[c]? with
    | some x, some y =>
      let r := pqCompare cmp dup x.1 y.1.1
      some (if r.1 then c + 1 else c, r.2)
    | _, _ => none
  else some (c, dup)

/-- `pqueue_percolate_down`, pqueue.cc 140–156, with the hole at `i`.  The first argument counts the steps. -/
def percolate (cmp : K → K → Int) (m : Node K V) :
    Nat → List (Node K V) → Nat → Option (Row K V) → Option (List (Node K V) × Option (Row K V))
  | 0, _, _, _ => none
  | n + 1, d, i, dup =>
    match maxChild cmp d i dup with
    | none => none
    | some (c, dup) =>
      if c = 0 then some (d.set (i - 1) m, dup)
      else
        match d[c - 1]? with
        | none => none
        | some x =>
          let r := pqCompare cmp dup m.1 x.1.1
          if r.1 then percolate cmp m n (d.set (i - 1) x) c r.2
          else some (d.set (i - 1) m, r.2)

/-- `pqueue_insert`, pqueue.cc 159–173. -/
def PQ.insert (cmp : K → K → Int) (q : PQ K V) (m : Node K V) : R K V (PQ K V) :=
  if q.avail ≤ q.d.length + 1 then .err .full
  else
    match bubbleUp cmp m (q.d.length + 2) (q.d ++ [m]) (q.d.length + 1) q.dup with
    | none => .crash
    | some (d, none) => .ok ⟨d, q.avail, none⟩
    | some (_, some r) => .err (.exist r)

/-- `pqueue_pop`, pqueue.cc 175–190, of a queue that is not empty. -/
def PQ.pop (cmp : K → K → Int) (q : PQ K V) : R K V (Node K V × PQ K V) :=
  match q.d.head?, q.d.getLast? with
  | some x, some m =>
    match percolate cmp m (q.d.length + 1) ((q.d.set 0 m).dropLast) 1 q.dup with
    | none => .crash
    | some (d, none) => .ok (x, ⟨d, q.avail, none⟩)
    | some (_, some r) => .err (.exist r)
  | _, _ => .crash

/-! ## Merging runs -/

/-- The output of a merge: row sets sent to the queue of the tree writer, and the row set that is being
filled (`output_rowset`).  For output to a file only `cur` is used. -/
structure Out (K V : Type) where
  sent : List (List (Row K V))
  cur : List (Row K V)
deriving DecidableEq, Repr

/-- One row of output, loader.cc 1838–1870. -/
def Out.emit (e : Env K V) (toQ : Bool) (budget : Nat) (o : Out K V) (r : Row K V) : Out K V :=
  if toQ && wontFit e budget o.cur (e.klen r.1 + e.vlen r.2) then ⟨o.sent ++ [o.cur], [r]⟩
  else { o with cur := o.cur ++ [r] }

/-- Load the queue with the first row of each source, loader.cc 1779–1808.  The sources are numbered from `i`. -/
def fill (cmp : K → K → Int) : Nat → List (List (Row K V)) → PQ K V → R K V (PQ K V)
  | _, [], q => .ok q
  | i, [] :: l, q => fill cmp (i + 1) l q
  | i, (r :: _) :: l, q =>
    match q.insert cmp (r, i) with
    | .ok q => fill cmp (i + 1) l q
    | .err c => .err c
    | .crash => .crash

/-- The loop of `toku_merge_some_files_using_dbufio`, loader.cc 1829–1914.  `srcs`: the rows of each source
not yet read.  A duplicate found by `pqueue_pop` is a failed assertion (`invariant(0)`, 1837). -/
def mergeSome.loop (e : Env K V) (toQ : Bool) (budget : Nat) :
    Nat → List (List (Row K V)) → PQ K V → Out K V → R K V (Out K V)
  | 0, _, _, _ => .crash
  | n + 1, srcs, q, o =>
    if q.d.length = 0 then .ok o
    else
      match q.pop e.cmp with
      | .crash => .crash
      | .err _ => .crash
      | .ok ((r, i), q) =>
        let o := o.emit e toQ budget r
        match srcs[i]? with
        | none => .crash
        | some [] => loop e toQ budget n srcs q o
        | some (r' :: rest) =>
          match q.insert e.cmp (r', i) with
          | .crash => .crash
          | .err c => .err c
          | .ok q => loop e toQ budget n (srcs.set i rest) q o

/-- Number of rows in some runs. -/
def total (fs : List (List (Row K V))) : Nat := (fs.map List.length).sum

/-- `toku_merge_some_files_using_dbufio` and `merge_some_files`, loader.cc 1722–1995. -/
def mergeSome (e : Env K V) (toQ : Bool) (srcs : List (List (Row K V))) : R K V (Out K V) :=
  match fill e.cmp 0 srcs ⟨[], srcs.length + 1, none⟩ with
  | .crash => .crash
  | .err c => .err c
  | .ok q => mergeSome.loop e toQ (e.mbudget srcs.length) (total srcs + 1) (srcs.map List.tail) q ⟨[], []⟩

/-- `n_passes`, loader.cc 2003–2010.  The first argument counts the steps. -/
def nPasses : Nat → Nat → Nat → Nat
  | 0, _, _ => 0
  | n + 1, N, B => if 1 < N then nPasses n ((N + B - 1) / B) B + 1 else 0

/-- One pass of `merge_files`, loader.cc 2040–2113: merge the last files, up to the limit, until none is
left.  Results: the files of the next pass, and the row sets sent to the tree writer. -/
def mergePass (e : Env K V) (toQ : Bool) : Nat → List (List (Row K V)) → List (List (Row K V)) →
    List (List (Row K V)) → R K V (List (List (Row K V)) × List (List (Row K V)))
  | 0, _, _, _ => .crash
  | n + 1, fs, next, q =>
    if fs.length = 0 then .ok (next, q)
    else
      let k := min (if toQ then e.fin else e.early) fs.length
      match mergeSome e toQ (fs.drop (fs.length - k)).reverse with
      | .crash => .crash
      | .err c => .err c
      | .ok o =>
        if toQ then mergePass e toQ n (fs.take (fs.length - k)) next (q ++ o.sent ++ [o.cur])
        else mergePass e toQ n (fs.take (fs.length - k)) (next ++ [o.cur]) q

/-- The loop of `merge_files`, loader.cc 2034–2125.  `left`: `n_passes_left`, by which is divided (2035). -/
def mergeFiles.loop (e : Env K V) : Nat → Nat → List (List (Row K V)) → List (List (Row K V)) →
    R K V (List (List (Row K V)))
  | 0, _, _, _ => .crash
  | n + 1, left, fs, q =>
    if fs.length = 0 then .ok q
    else if left = 0 then .crash
    else
      match mergePass e (decide (fs.length ≤ e.fin)) (fs.length + 1) fs [] q with
      | .crash => .crash
      | .err c => .err c
      | .ok (next, q) => loop e n (left - 1) next q

/-- `merge_files`, loader.cc 2012–2138: merge all the runs and send the rows to the tree writer. -/
def mergeFiles (e : Env K V) (fs : List (List (Row K V))) : R K V (List (List (Row K V))) :=
  mergeFiles.loop e (fs.length + 2)
    (if fs.length ≤ e.fin then 1
     else 1 + nPasses ((fs.length + e.fin - 1) / e.fin) ((fs.length + e.fin - 1) / e.fin) e.early) fs []

/-! ## Writing the tree -/

/-- A tree as written: a leaf, or a node with its pivots and its children.  A pivot `none` is the empty
entry at the end of a file of pivots. -/
inductive Tree (K V : Type)
  | leaf (rows : List (Row K V))
  | node (pivots : List (Option K)) (kids : List (Tree K V))
deriving Repr

/-- State of `toku_loader_write_ft_from_q`: subtrees and pivots written so far, the rows of the current
leaf and their size (`lbuf->off`), `maxkey`, `used_estimate`. -/
structure Wr (K V : Type) where
  subs : List (Tree K V)
  pivots : List (Option K)
  rows : List (Row K V)
  off : Nat
  maxkey : Option K
  used : Nat

/-- When a row starts a new leaf, loader.cc 2512–2524.  `est`: `total_disksize_estimate`; `used` is at most
`est` (the subtraction is unsigned). -/
def splitHere (e : Env K V) (est : Nat) (w : Wr K V) (r : Row K V) : Bool :=
  let remaining := est - (w.used + e.les r)
  let here := w.off + 1000
  let target := e.node * 7 / 8
  decide (0 < w.rows.length) &&
    (decide (target ≤ here + e.les r) || (decide (target ≤ here + remaining) && decide (remaining < w.off)))

/-- One row in `toku_loader_write_ft_from_q`, loader.cc 2503–2570. -/
def Wr.row (e : Env K V) (est : Nat) (w : Wr K V) (r : Row K V) : R K V (Wr K V) :=
  if splitHere e est w r then
    match w.maxkey with
    | none => .crash
    | some m => .ok ⟨w.subs ++ [.leaf w.rows], w.pivots ++ [some m], [r], e.les r, some r.1, w.used + e.les r⟩
  else .ok ⟨w.subs, w.pivots, w.rows ++ [r], w.off + e.les r, some r.1, w.used + e.les r⟩

/-- The rows of a row set, loader.cc 2503–2570. -/
def Wr.set (e : Env K V) (est : Nat) (w : Wr K V) : List (Row K V) → R K V (Wr K V)
  | [] => .ok w
  | r :: l =>
    match w.row e est r with
    | .ok w => w.set e est l
    | .err c => .err c
    | .crash => .crash

/-- The row sets of the queue, loader.cc 2489–2581. -/
def Wr.sets (e : Env K V) (est : Nat) (w : Wr K V) : List (List (Row K V)) → R K V (Wr K V)
  | [] => .ok w
  | s :: l =>
    match w.set e est s with
    | .ok w => w.sets e est l
    | .err c => .err c
    | .crash => .crash

/-- A level of the tree in the making: subtrees and pivots of the level below not yet used, subtrees and pivots
of this level. -/
structure Lev (K V : Type) where
  subs : List (Tree K V)
  pivots : List (Option K)
  nsubs : List (Tree K V)
  npivots : List (Option K)

/-- `setup_nonleaf_block` and `write_nonleaf_node`, loader.cc 3165–3297: a node over the next `n` subtrees.  The
last of the `n` pivots goes to the level above. -/
def Lev.block (s : Lev K V) (n : Nat) : R K V (Lev K V) :=
  if s.pivots.length < n then .err .short
  else
    match (s.pivots.take n).getLast? with
    | none => .crash
    | some p =>
      if s.subs.length < n then .crash
      else .ok ⟨s.subs.drop n, s.pivots.drop n,
        s.nsubs ++ [.node (s.pivots.take (n - 1)) (s.subs.take n)], s.npivots ++ [p]⟩

/-- The nodes of `n_per_block` = 15 children, loader.cc 3336–3355.  The first argument counts the steps. -/
def Lev.full : Nat → Lev K V → R K V (Lev K V)
  | 0, _ => .crash
  | n + 1, s =>
    if 15 * 2 ≤ s.subs.length then
      match s.block 15 with
      | .ok s => Lev.full n s
      | .err c => .err c
      | .crash => .crash
    else .ok s

/-- The last one or two nodes, loader.cc 3357–3399. -/
def Lev.rest (s : Lev K V) : R K V (Lev K V) :=
  if s.subs.length < 2 then .crash
  else if 15 < s.subs.length then
    match s.block (s.subs.length / 2) with
    | .ok s => s.block s.subs.length
    | .err c => .err c
    | .crash => .crash
  else s.block s.subs.length

/-- `write_nonleaves`, loader.cc 3299–3417.  The first argument counts the levels. -/
def nonleaves : Nat → List (Tree K V) → List (Option K) → R K V (List (Tree K V))
  | 0, _, _ => .crash
  | n + 1, subs, pivots =>
    if 1 < subs.length then
      match Lev.full (subs.length + 1) ⟨subs, pivots, [], []⟩ with
      | .ok s =>
        match s.rest with
        | .ok s => if s.subs.length = 0 then nonleaves n s.nsubs s.npivots else .crash
        | .err c => .err c
        | .crash => .crash
      | .err c => .err c
      | .crash => .crash
    else .ok subs

/-- `toku_loader_write_ft_from_q`, loader.cc 2403–2700: the tree over the rows of the queue. -/
def writeTree (e : Env K V) (est : Nat) (q : List (List (Row K V))) : R K V (Tree K V) :=
  match Wr.sets e est ⟨[], [], [], 0, none, 0⟩ q with
  | .crash => .crash
  | .err c => .err c
  | .ok w =>
    if w.used ≠ est then .crash
    else
      match nonleaves (w.subs.length + 2) (w.subs ++ [.leaf w.rows]) (w.pivots ++ [none]) with
      | .ok [t] => .ok t
      | .ok _ => .crash
      | .err c => .err c
      | .crash => .crash

/-! ## The loader -/

/-- A loader with one destination dictionary: `primary_rowset`, the queue of primary row sets, the extractor's state,
and the first error noted (`error_callback.error`). `failed`: the extractor's last row set failed (`r` in
`extractor_thread`). -/
structure Ld (K V : Type) where
  prim : List (Row K V)
  queue : List (List (Row K V))
  ext : Ext K V
  err : Option (Err K V)
  failed : Bool
deriving DecidableEq, Repr

/-- `toku_ft_loader_open`, loader.cc 593–651. -/
def Ld.open : Ld K V := ⟨[], [], ⟨[], ⟨[], none⟩, 0⟩, none, false⟩

/-- `ft_loader_set_panic`, loader.cc 653–658: the first error stays. -/
def Ld.panic (s : Ld K V) (c : Err K V) : Ld K V :=
  { s with err := match s.err with | none => some c | some x => some x }

/-- `toku_ft_loader_put`, `loader_do_put`, `enqueue_for_extraction`, loader.cc 1109–1136, 1322–1331.  The result is the error
returned. -/
def Ld.put (e : Env K V) (s : Ld K V) (r : Row K V) : Ld K V × Option (Err K V) :=
  match s.err with
  | some _ => (s, some .inval)
  | none =>
    if wontFit e e.ebudget (s.prim ++ [r]) 0 then
      ({ s with prim := [], queue := s.queue ++ [s.prim ++ [r]] }, none)
    else ({ s with prim := s.prim ++ [r] }, none)

/-- One round of `extractor_thread`, loader.cc 1077–1099.  (What a failed round has done to the row set and
the files is not modelled: they are left as before.) -/
def Ld.extract (e : Env K V) (s : Ld K V) : Option (Ld K V) :=
  match s.queue with
  | [] => some s
  | p :: q =>
    match s.ext.process e p with
    | .ok x => some { s with queue := q, ext := x, failed := false }
    | .err c => some ({ s with queue := q, failed := true }.panic c)
    | .crash => none

/-- The extractor takes the rest of the queue; the first argument is its length. -/
def Ld.drain (e : Env K V) : Nat → Ld K V → Option (Ld K V)
  | 0, s => some s
  | n + 1, s => (s.extract e).bind (Ld.drain e n)

/-- `finish_extractor` and the end of `extractor_thread`, loader.cc 1101–1107, 1138–1172. -/
def Ld.finishExtractor (e : Env K V) (s : Ld K V) : Option (Ld K V) :=
  let s := if 0 < s.prim.length then { s with prim := [], queue := s.queue ++ [s.prim] } else s
  match s.drain e s.queue.length with
  | none => none
  | some s =>
    if s.failed then some s
    else
      match s.ext.finish e with
      | .ok x => some { s with ext := x }
      | .err c => some (s.panic c)
      | .crash => none

/-- `toku_ft_loader_close`, `toku_ft_loader_close_internal`, `loader_do_i`, loader.cc 2739–2931: finish the extraction;
if there is no error, merge the runs and write the tree. -/
def Ld.close (e : Env K V) (s : Ld K V) : R K V (Tree K V) :=
  match s.finishExtractor e with
  | none => .crash
  | some s =>
    match s.err with
    | some c => .err c
    | none =>
      match mergeFiles e s.ext.fs.files with
      | .ok q => writeTree e s.ext.size q
      | .err c => .err c
      | .crash => .crash

end Verif.Load
