/-!
# The number of rows and the size reported for a dictionary

Model of how `DB->stat64` comes by the number of rows and the data size: counts kept in memory, corrected
while messages are applied to leaves, taken back when leaves leave the memory, and saved in the header.

Code: ft/ft.cc:180-216 (checkpoint of the header), 228-280 (close), 814-842 (stat64), 894-919 (adjusting);
ft/ft-ops.cc:568-582, 625-800 (clone and flush callbacks), 930-1060 (partial eviction), 2404-2450 (insert),
2470-2520 (update), 2601-2632 (delete); ft/node.cc:121-165, 374-530, 1145-1230, 1886-1990, 2065-2150;
ft/ft-flusher.cc:120-150, 1550-1620; ft/serialize/ft-serialize.cc:278-331, 840-850;
ft/serialize/ft_node-serialize.cc:830-838, 1000-1020.

Simplifications, common to the whole module:
* The content of a basement node is a value of any type; what a message does to it, by how much it corrects
  the row count, what garbage collection does and how large it is are functions the theorems quantify over
  (`Ops`).  The row application itself is in `Verif.Ule` and `Verif.Ft` (C13, C14).
* `size` stands for the physical number of rows and for the number of bytes alike: the two are kept by the
  same code, side by side (`STAT64INFO_S`).
* Leaves are never split or merged, basement nodes are never rebalanced.
* All messages above a leaf are one list per basement node; a reader applies all of them in one step.
* A checkpoint clones all dirty leaves when it begins; in the code a leaf is cloned at some time between the
  beginning of the checkpoint and the next change of the leaf, which is the same content.
* Signed 64-bit sums of the physical counts do not overflow.
-/

namespace Verif.Rowcount

variable {σ μ : Type}

/-- What the counting depends on: the effect of a message on a basement node, its correction of the row count
(the result of toku_le_apply_msg, ft/node.cc:1184-1192, 1217), what the sender of the message adds to the row
count (ft/ft-ops.cc:2268, 2444, 2519, 2629), garbage collection (ft/node.cc:1886-1990) and the physical count
(rows or bytes, ft/node.cc:1220-1228). -/
structure Ops (σ μ : Type) where
  apply : σ → μ → σ
  corr : σ → μ → Int
  said : μ → Int
  gc : σ → σ
  size : σ → Int

/-- (uint64_t)-1, ft/ft.cc:914: no row count is known. -/
def ones : Nat := 2 ^ 64 - 1

/-- A sum as an unsigned 64-bit number. -/
def wrap (x : Int) : Nat := (x % (2 ^ 64)).toNat

/-- toku_ft_adjust_logical_row_count, ft/ft.cc:904-919 (as one step). -/
def adjust (rows : Nat) (delta : Int) : Nat :=
  if delta ≠ 0 ∧ rows ≠ ones then
    let r := wrap (rows + delta)
    if r = ones then wrap (r + 1) else r
  else rows

/-- A basement node in memory: BASEMENTNODE, ft/node.h:225-233 (content, max_msn_applied, logical_rows_delta,
stat64_delta). -/
structure Mem (σ : Type) where
  val : σ
  upto : Nat
  lrd : Int
  sd : Int
deriving DecidableEq

/-- A basement node: its version on disk, its version in memory (PT_AVAIL) if any, its version in a clone being
written if any, and the messages for it that wait in the nodes above, oldest first.  `init` and `hist` are
history variables, never read by a step: the content at the start and all messages ever sent. -/
structure Base (σ μ : Type) where
  disk : σ
  dupto : Nat
  mem : Option (Mem σ)
  clone : Option (σ × Nat)
  pend : List (Nat × μ)
  init : σ
  hist : List (Nat × μ)
deriving DecidableEq

/-- A leaf: FTNODE with height 0. -/
structure Leaf (σ μ : Type) where
  bases : List (Base σ μ)
  dirty : Bool
  cloned : Bool
deriving DecidableEq

/-- What a checkpoint leaves on disk: the leaves as they were when it began, and the counts of the header. -/
structure Image (σ μ : Type) where
  leaves : List (Leaf σ μ)
  rows : Nat
  stats : Int
  next : Nat
deriving DecidableEq

/-- The dictionary: leaves, in_memory_logical_rows, in_memory_stats, h->on_disk_stats (ft/ft-internal.h:164,
201-202), max_msn_in_ft, the checkpoint in progress and the last one that ended. -/
structure St (σ μ : Type) where
  leaves : List (Leaf σ μ)
  rows : Nat
  stats : Int
  onDisk : Int
  next : Nat
  ckpt : Option (Image σ μ)
  saved : Image σ μ
deriving DecidableEq

/-- Applying messages to a basement node, those not applied before: do_bn_apply_msg, ft/node.cc:216-248 and
toku_ft_leaf_apply_msg, ft/node.cc:2107-2125.  Result: content, max_msn_applied, correction. -/
def applyMsgs (O : Ops σ μ) : σ → Nat → List (Nat × μ) → σ × Nat × Int
  | v, u, [] => (v, u, 0)
  | v, u, (n, m) :: rest =>
    if u < n then
      let r := applyMsgs O (O.apply v m) n rest
      (r.1, r.2.1, O.corr v m + r.2.2)
    else applyMsgs O v u rest

/-- A message reaches the nodes above a basement node. -/
def Base.send (b : Base σ μ) (n : Nat) (m : μ) : Base σ μ :=
  { b with pend := b.pend ++ [(n, m)], hist := b.hist ++ [(n, m)] }

/-- A basement node is read from disk: toku_create_empty_bn_no_buffer and the deserialization,
ft/serialize/ft_node-serialize.cc:1011-1020. -/
def Base.load (b : Base σ μ) : Base σ μ :=
  { b with mem := some { val := b.disk, upto := b.dupto, lrd := 0, sd := 0 } }

/-- The messages above are applied for a reader: bnc_apply_messages_to_basement_node, ft/node.cc:385-529.
Result: basement node, correction, change of the physical count. -/
def Base.read (O : Ops σ μ) (b : Base σ μ) (m : Mem σ) : Base σ μ × Int × Int :=
  let r := applyMsgs O m.val m.upto b.pend
  let d := O.size r.1 - O.size m.val
  ({ b with mem := some { val := r.1, upto := r.2.1, lrd := m.lrd + r.2.2, sd := m.sd + d } }, r.2.2, d)

/-- The messages up to a number leave the nodes above and are applied for good: toku_bnc_flush_to_child,
ft/ft-flusher.cc:1550-1618, with toku_ft_leaf_apply_msg, ft/node.cc:2065-2150. -/
def Base.flush (O : Ops σ μ) (cut : Nat) (b : Base σ μ) : Base σ μ × Int × Int :=
  match b.mem with
  | none => (b, 0, 0)
  | some m =>
    let r := applyMsgs O m.val m.upto (b.pend.filter (fun x => decide (x.1 ≤ cut)))
    let d := O.size r.1 - O.size m.val
    ({ b with
        mem := some { val := r.1, upto := r.2.1, lrd := m.lrd, sd := m.sd + d }
        pend := b.pend.filter (fun x => decide (cut < x.1)) }, r.2.2, d)

/-- A basement node is written in place: garbage collection (toku_ftnode_leaf_run_gc), then
toku_ftnode_update_disk_stats, ft/ft-ops.cc:716-720, then serialization, ft/serialize/ft_node-serialize.cc:830-836.
Result: basement node, change of the count in memory by the garbage collection, change of the count on disk. -/
def Base.write (O : Ops σ μ) (b : Base σ μ) : Base σ μ × Int × Int :=
  match b.mem with
  | none => (b, 0, 0)
  | some m =>
    let v := O.gc m.val
    let d := O.size v - O.size m.val
    ({ b with disk := v, dupto := m.upto, mem := some { val := v, upto := m.upto, lrd := 0, sd := 0 } },
      d, m.sd + d)

/-- A basement node is cloned: toku_ftnode_clone_callback, ft/ft-ops.cc:638-690.
Result: basement node, change of the count on disk. -/
def Base.copy (b : Base σ μ) : Base σ μ × Int :=
  match b.mem with
  | none => (b, 0)
  | some m => ({ b with clone := some (m.val, m.upto), mem := some { m with lrd := 0, sd := 0 } }, m.sd)

/-- The clone of a basement node is written: garbage collection of the clone, no update of the count on disk,
and what the garbage collection took from the count in memory is given back, ft/ft-ops.cc:714-725, 757-772.
Result: basement node, change of the count in memory by the garbage collection, and what is given back. -/
def Base.writeCopy (O : Ops σ μ) (b : Base σ μ) : Base σ μ × Int × Int :=
  match b.clone with
  | none => (b, 0, 0)
  | some (v, u) =>
    let d := O.size (O.gc v) - O.size v
    ({ b with disk := O.gc v, dupto := u, clone := none }, d, - d)

/-- What is taken back from the row count when a clean leaf leaves the memory, ft/ft-ops.cc:747-756. -/
def Base.undo (b : Base σ μ) : Int :=
  match b.mem with
  | none => 0
  | some m => - m.lrd

/-- The basement node is no longer in memory. -/
def Base.forget (b : Base σ μ) : Base σ μ := { b with mem := none }

/-- What a checkpoint that begins now will have written of a basement node of a leaf. -/
def Base.image (O : Ops σ μ) (dirty : Bool) (b : Base σ μ) : Base σ μ :=
  match dirty, b.mem with
  | true, some m => { b with disk := O.gc m.val, dupto := m.upto, mem := none, clone := none }
  | _, _ => { b with mem := none, clone := none }

/-- The same for a leaf. -/
def Leaf.image (O : Ops σ μ) (l : Leaf σ μ) : Leaf σ μ :=
  { bases := l.bases.map (Base.image O l.dirty), dirty := false, cloned := false }

/-- All dirty basement nodes are cloned. -/
def Leaf.copy (l : Leaf σ μ) : Leaf σ μ × Int :=
  if l.dirty then
    ({ bases := l.bases.map (fun b => b.copy.1), dirty := false, cloned := true },
      (l.bases.map (fun b => b.copy.2)).sum)
  else (l, 0)

/-- All basement nodes are in memory: toku_ftnode_assert_fully_in_memory. -/
def Leaf.full (l : Leaf σ μ) : Bool := l.bases.all (fun b => b.mem.isSome)

/-- What happens to a dictionary. -/
inductive Ev (μ : Type)
  /-- A message for a basement node of a leaf is sent: put, del, update. -/
  | put (l i : Nat) (m : μ)
  /-- A message for all. -/
  | broadcast (m : μ)
  /-- Recovery passes over an update that is in the tree already, ft/ft-ops.cc:2507-2519. -/
  | oldUpdate
  /-- A basement node is read from disk. -/
  | load (l i : Nat)
  /-- A reader uses a basement node. -/
  | read (l i : Nat)
  /-- Messages are flushed to a leaf. -/
  | flush (l cut : Nat)
  /-- A dirty leaf is written. -/
  | write (l : Nat)
  /-- The clone of a leaf is written. -/
  | writeClone (l : Nat)
  /-- A clean leaf is evicted as a whole. -/
  | evict (l : Nat)
  /-- A basement node of a clean leaf is evicted. -/
  | drop (l i : Nat)
  /-- A checkpoint begins. -/
  | beginCkpt
  /-- A checkpoint ends: the header is written. -/
  | endCkpt
  /-- The process ends and the dictionary is opened again, from the last checkpoint. -/
  | restart
deriving DecidableEq

/-- Put a changed leaf back. -/
def St.setLeaf (s : St σ μ) (i : Nat) (l : Leaf σ μ) : St σ μ := { s with leaves := s.leaves.set i l }

/-- One step; `none`: not possible now. -/
def step (O : Ops σ μ) (s : St σ μ) : Ev μ → Option (St σ μ)
  -- ft_send_insert and the like, then toku_ft_adjust_logical_row_count, ft/ft-ops.cc:2440-2444, 2628-2629
  | .put l i m =>
    match s.leaves[l]? with
    | none => none
    | some lf =>
      match lf.bases[i]? with
      | none => none
      | some b =>
        some { s with
          leaves := s.leaves.set l { lf with bases := lf.bases.set i (b.send (s.next + 1) m) }
          next := s.next + 1
          rows := adjust s.rows (O.said m) }
  -- toku_ft_maybe_update_broadcast, toku_ft_optimize: no adjustment by the sender
  | .broadcast m =>
    some { s with
      leaves := s.leaves.map (fun lf => { lf with bases := lf.bases.map (fun b => b.send (s.next + 1) m) })
      next := s.next + 1 }
  -- toku_ft_maybe_update, ft/ft-ops.cc:2507-2519: the adjustment is outside the `else`
  | .oldUpdate => some { s with rows := adjust s.rows 1 }
  | .load l i =>
    match s.leaves[l]? with
    | none => none
    | some lf =>
      match lf.bases[i]? with
      | none => none
      | some b =>
        if b.mem = none then some (s.setLeaf l { lf with bases := lf.bases.set i b.load }) else none
  -- bnc_apply_messages_to_basement_node, ft/node.cc:520-528
  | .read l i =>
    match s.leaves[l]? with
    | none => none
    | some lf =>
      match lf.bases[i]? with
      | none => none
      | some b =>
        match b.mem with
        | none => none
        | some m =>
          let r := b.read O m
          some { s with
            leaves := s.leaves.set l { lf with bases := lf.bases.set i r.1 }
            rows := adjust s.rows r.2.1
            stats := s.stats + r.2.2 }
  -- toku_bnc_flush_to_child, ft/ft-flusher.cc:1607-1617
  | .flush l cut =>
    match s.leaves[l]? with
    | none => none
    | some lf =>
      if lf.full then
        some { s with
          leaves := s.leaves.set l { lf with bases := lf.bases.map (fun b => (b.flush O cut).1), dirty := true }
          rows := adjust s.rows (lf.bases.map (fun b => (b.flush O cut).2.1)).sum
          stats := s.stats + (lf.bases.map (fun b => (b.flush O cut).2.2)).sum }
      else none
  -- toku_ftnode_flush_callback with write_me, not a clone, ft/ft-ops.cc:707-726
  | .write l =>
    match s.leaves[l]? with
    | none => none
    | some lf =>
      if lf.full && lf.dirty && !lf.cloned then
        some { s with
          leaves := s.leaves.set l { lf with bases := lf.bases.map (fun b => (b.write O).1), dirty := false }
          stats := s.stats + (lf.bases.map (fun b => (b.write O).2.1)).sum
          onDisk := s.onDisk + (lf.bases.map (fun b => (b.write O).2.2)).sum }
      else none
  -- toku_ftnode_flush_callback with write_me, a clone, not kept, ft/ft-ops.cc:707-726, 757-774
  | .writeClone l =>
    match s.leaves[l]? with
    | none => none
    | some lf =>
      if lf.cloned then
        some { s with
          leaves := s.leaves.set l { lf with bases := lf.bases.map (fun b => (b.writeCopy O).1), cloned := false }
          stats := s.stats + (lf.bases.map (fun b => (b.writeCopy O).2.1)).sum
            + (lf.bases.map (fun b => (b.writeCopy O).2.2)).sum }
      else none
  -- toku_ftnode_flush_callback, not written, not kept, not a clone, ft/ft-ops.cc:729-764: the row count is
  -- corrected, the counts in `in_memory_stats` are not
  | .evict l =>
    match s.leaves[l]? with
    | none => none
    | some lf =>
      if !lf.dirty && !lf.cloned then
        some { s with
          leaves := s.leaves.set l { lf with bases := lf.bases.map Base.forget }
          rows := adjust s.rows (lf.bases.map Base.undo).sum }
      else none
  -- toku_ftnode_pe_callback, ft/ft-ops.cc:944-948, 1012-1036; toku_evict_bn_from_memory, ft/node.cc:154-165
  | .drop l i =>
    match s.leaves[l]? with
    | none => none
    | some lf =>
      match lf.bases[i]? with
      | none => none
      | some b =>
        match b.mem with
        | none => none
        | some m =>
          if !lf.dirty && !lf.cloned then
            some { s with
              leaves := s.leaves.set l { lf with bases := lf.bases.set i b.forget }
              stats := s.stats - m.sd
              rows := adjust s.rows (- m.lrd) }
          else none
  -- ft_begin_checkpoint, ft/ft.cc:142-152, and the clones of all dirty leaves, ft/ft-ops.cc:625-690
  | .beginCkpt =>
    if s.ckpt = none ∧ s.leaves.all (fun l => !l.cloned) then
      let d := (s.leaves.map (fun l => l.copy.2)).sum
      some { s with
        leaves := s.leaves.map (fun l => l.copy.1)
        onDisk := s.onDisk + d
        ckpt := some { leaves := s.leaves.map (Leaf.image O), rows := s.rows, stats := s.onDisk + d, next := s.next } }
    else none
  -- ft_checkpoint, ft/ft.cc:180-216: the row count written is the one of now, line 198
  | .endCkpt =>
    match s.ckpt with
    | none => none
    | some c =>
      if s.leaves.all (fun l => !l.cloned) then
        some { s with ckpt := none, saved := { c with rows := s.rows } }
      else none
  -- deserialize_ft_versioned, ft/serialize/ft-serialize.cc:278-331
  | .restart =>
    some {
      leaves := s.saved.leaves
      rows := s.saved.rows
      stats := s.saved.stats
      onDisk := s.saved.stats
      next := s.saved.next
      ckpt := none
      saved := s.saved }

/-- Any number of steps. -/
def run (O : Ops σ μ) (s : St σ μ) : List (Ev μ) → Option (St σ μ)
  | [] => some s
  | e :: es =>
    match step O s e with
    | none => none
    | some t => run O t es

/-- toku_ft_stat64, ft/ft.cc:814-831: the number of rows reported. -/
def nkeys (s : St σ μ) : Int :=
  let n : Int := if s.rows = ones then s.stats else if s.rows < 2 ^ 63 then s.rows else s.rows - 2 ^ 64
  if n < 0 then 0 else n

/-- toku_ft_stat64, ft/ft.cc:832-836: the size reported, when `size` is the number of bytes. -/
def dsize (s : St σ μ) : Int := if s.stats < 0 then 0 else s.stats

/-- A basement node that is on disk only, nothing above it. -/
def Base.fresh (v : σ) : Base σ μ :=
  { disk := v, dupto := 0, mem := none, clone := none, pend := [], init := v, hist := [] }

/-- A leaf of such basement nodes. -/
def Leaf.fresh (vs : List σ) : Leaf σ μ := { bases := vs.map Base.fresh, dirty := false, cloned := false }

/-- The dictionary as it is opened after it was closed with no messages in the inner nodes, the header holding
row count `r` and the exact physical counts. -/
def start (O : Ops σ μ) (vss : List (List σ)) (r : Nat) : St σ μ :=
  let ls := vss.map Leaf.fresh
  let d := (vss.map (fun vs => (vs.map O.size).sum)).sum
  { leaves := ls, rows := r, stats := d, onDisk := d, next := 0, ckpt := none,
    saved := { leaves := ls, rows := r, stats := d, next := 0 } }

end Verif.Rowcount
