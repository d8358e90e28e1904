import Verif.Ule.Model

/-
Model of the transaction manager's MVCC bookkeeping, ft/txn/txn_manager.cc, and of the two decisions
taken from it: which versions a snapshot reads (ft/txn/txn.cc) and which versions garbage collection
keeps (ft/ule.cc:236-437).

Every operation below runs under the manager mutex in the C++, so it is one atomic step here.
OMTs (`xid_omt_t`, `rx_omt_t`, util/omt.h) are modelled by the lists of their elements in index order;
`find_zero`/`find` on a sorted OMT are the list searches below (C38 is about the OMT itself).
-/
namespace Verif.Txn
open Verif.Ule (Uxr Ule)

/-- A recorded snapshot: the fields of a `tokutxn` on the manager's snapshot list that matter
(`snapshot_txnid64`, root id `txnid.parent_id64`, `live_root_txn_list`), ft/txn/txn.h:150-165. -/
structure Snap where
  id : Txnid
  root : Txnid
  live : List Txnid
  deriving DecidableEq, Repr

/-- `struct referenced_xid_tuple`, ft/txn/txn_manager.h:47-51. -/
structure RefTuple where
  beginId : Txnid
  endId : Txnid
  refs : Nat
  deriving DecidableEq, Repr

/-- `struct txn_manager`, ft/txn/txn_manager.h:55-80.  `live` is `live_root_ids` (always equal, index by
index, to the ids of `live_root_txns`); `snaps` is the list from `snapshot_head` to `snapshot_tail`;
`refs` is `referenced_xids`; `oldest` is `last_calculated_oldest_referenced_xid`. -/
structure Mgr where
  lastXid : Txnid
  live : List Txnid
  snaps : List Snap
  refs : List RefTuple
  oldest : Txnid
  deriving DecidableEq, Repr

/-- `toku_txn_manager_init`, ft/txn/txn_manager.cc:254-270, followed by
`toku_txn_manager_set_last_xid_from_logger` (1006-1009) with an arbitrary starting id. -/
def Mgr.init (lastXid : Txnid) : Mgr := ⟨lastXid, [], [], [], 0⟩

/-- `set_oldest_referenced_xid`, ft/txn/txn_manager.cc:335-363.  The C++ starts from `TXNID_MAX` when
nothing is live; ids being unbounded here, the final minimum with `last_xid` plays that part. -/
def Mgr.calcOldest (m : Mgr) : Txnid :=
  let o := m.live.head?.getD m.lastXid
  let o := match m.refs with
    | t :: _ => if t.beginId < o then t.beginId else o
    | [] => o
  let o := match m.snaps with
    | s :: _ => if s.id < o then s.id else o
    | [] => o
  if m.lastXid < o then m.lastXid else o

/-- `toku_txn_manager_start_txn`, ft/txn/txn_manager.cc:599-668: new manager, the transaction's id,
and its snapshot when it records one.  (`TXN_COPIES_SNAPSHOT` only copies the live list into the
transaction and leaves the manager alone.) -/
def Mgr.start (m : Mgr) (records readOnly : Bool) : Mgr × Txnid × Option Snap :=
  let xid := m.lastXid + 1
  let live := if readOnly then m.live else m.live ++ [xid]
  let m1 : Mgr := { m with lastXid := xid, live := live }
  let m2 : Mgr := { m1 with oldest := m1.calcOldest }
  if records then
    let s : Snap := ⟨xid + 1, xid, live⟩
    ({ m2 with lastXid := xid + 1, snaps := m2.snaps ++ [s] }, xid, some s)
  else (m2, xid, none)

/-- `toku_txn_manager_handle_snapshot_create_for_child_txn` for a child that records its own snapshot,
ft/txn/txn_manager.cc:523-553 (with 376-396). -/
def Mgr.startChildSnap (m : Mgr) (root : Txnid) : Mgr × Snap :=
  let s : Snap := ⟨m.lastXid + 1, root, m.live⟩
  ({ m with lastXid := m.lastXid + 1, snaps := m.snaps ++ [s] }, s)

/-- `referenced_xids_note_snapshot_txn_end_iter`, ft/txn/txn_manager.cc:411-429: drop one reference to
`x`, removing the tuple when none is left.  `none` = `invariant(tuple->references > 0)` fails. -/
def decRef : List RefTuple → Txnid → Option (List RefTuple)
  | [], _ => some []
  | t :: ts, x =>
    if t.beginId = x then
      if t.refs = 0 then none
      else if t.refs - 1 = 0 then some ts
      else some ({ t with refs := t.refs - 1 } :: ts)
    else (decRef ts x).map (t :: ·)

/-- `note_snapshot_txn_end_by_ref_xids`, ft/txn/txn_manager.cc:433-438. -/
def noteEndByRefXids (refs : List RefTuple) (live : List Txnid) : Option (List RefTuple) :=
  live.foldlM decRef refs

/-- `note_snapshot_txn_end_by_txn_live_list` with its iterator, ft/txn/txn_manager.cc:449-484. -/
def noteEndByLiveList : List RefTuple → List Txnid → Option (List RefTuple)
  | [], _ => some []
  | t :: ts, live =>
    if live.contains t.beginId then
      if t.refs = 0 then none
      else (noteEndByLiveList ts live).map fun ts' =>
        if t.refs - 1 = 0 then ts' else { t with refs := t.refs - 1 } :: ts'
    else (noteEndByLiveList ts live).map (t :: ·)

/-- `txn_manager_remove_snapshot_unlocked`, ft/txn/txn_manager.cc:486-515. -/
def Mgr.removeSnap (m : Mgr) (s : Snap) : Option Mgr :=
  let m1 : Mgr := { m with snaps := m.snaps.erase s }
  if m.refs.length > 0 ∧ s.live.length > 0 then
    if s.live.length > m.refs.length ∧ m.refs.length < 2000 then
      (noteEndByLiveList m.refs s.live).map fun r => { m1 with refs := r }
    else
      (noteEndByRefXids m.refs s.live).map fun r => { m1 with refs := r }
  else some m1

/-- `referenced_xids.insert<TXNID, find_tuple_by_xid>`, ft/txn/txn_manager.cc:744: sorted insertion,
failing on a duplicate key (then `lazy_assert_zero` fails). -/
def insertRef : List RefTuple → RefTuple → Option (List RefTuple)
  | [], t => some [t]
  | a :: as, t =>
    if t.beginId < a.beginId then some (t :: a :: as)
    else if t.beginId = a.beginId then none
    else (insertRef as t).map (a :: ·)

/-- `toku_txn_manager_finish_txn`, ft/txn/txn_manager.cc:694-761.  `snap` is the root's own recorded
snapshot, `readOnly` is `txn_declared_read_only`, `wrote` is `!toku_txn_is_read_only`. -/
def Mgr.finish (m : Mgr) (xid : Txnid) (snap : Option Snap) (readOnly wrote : Bool) : Option Mgr :=
  (match snap with
    | some s => m.removeSnap s
    | none => some m).bind fun m1 =>
  if readOnly then some m1
  else if m1.live.contains xid then
    let m2 : Mgr := { m1 with live := m1.live.erase xid }
    if wrote then
      let n := (m2.snaps.reverse.takeWhile fun s : Snap => decide (xid < s.id)).length
      if n > 0 then
        (insertRef m2.refs ⟨xid, m2.lastXid + 1, n⟩).map fun r =>
          { m2 with lastXid := m2.lastXid + 1, refs := r }
      else some m2
    else some m2
  else none

/-- `find<…>(x, -1)` on an ascending OMT of ids: the largest id below `x`
(`get_next_older_txnid`, ft/ule.cc:236-247). -/
def findLT (ids : List Txnid) (x : Txnid) : Option Txnid := (ids.filter (· < x)).getLast?

/-- The state garbage collection works from: a clone of manager state taken by
`toku_txn_manager_clone_state_for_gc_unlocked`, ft/txn/txn_manager.cc:763-787. -/
structure GcState where
  snapIds : List Txnid
  refs : List RefTuple
  live : List Txnid
  deriving DecidableEq, Repr

/-- ft/txn/txn_manager.cc:763-787. -/
def Mgr.gcState (m : Mgr) : GcState := ⟨m.snaps.map (·.id), m.refs, m.live⟩

/-- `toku_get_youngest_live_list_txnid_for`, ft/txn/txn_manager.cc:671-692 (`none` = `TXNID_NONE`). -/
def GcState.youngest (g : GcState) (xc : Txnid) : Option Txnid :=
  match g.refs.find? (fun t => t.beginId = xc) with
  | none => none
  | some t => match findLT g.snapIds t.endId with
    | none => none
    | some l => if l > t.beginId then some l else none

/-- `xid_reads_committed_xid`, ft/ule.cc:253-283. -/
def GcState.readsCommitted (g : GcState) (tl1 xc : Txnid) : Bool :=
  if tl1 < xc then false
  else match g.youngest xc with
    | none => true
    | some x => decide (tl1 > x)

/-- The main loop of `ule_garbage_collect`, ft/ule.cc:344-424, over the committed records newest first.
The first argument is `none` when the head is known necessary and `some tl1` while the inner loop
(405-415) skips records that `tl1` does not read; the bottom record always ends both loops.  The
result is the list of records marked necessary; `none` = `invariant(tl1 != xc)` fails. -/
def gcWalk (g : GcState) : Option Txnid → List Uxr → Option (List Uxr)
  | _, [] => some []
  | _, [c] => some [c]
  | mode, c :: d :: rest =>
    let necessary : Option (List Uxr) :=
      if g.live.contains c.xid then (gcWalk g none (d :: rest)).map (c :: ·)
      else
        let y := g.youngest c.xid
        if y = some c.xid then none
        else match (y <|> findLT g.snapIds c.xid) with
          | none => some [c]
          | some tl1 => (gcWalk g (some tl1) (d :: rest)).map (c :: ·)
    match mode with
    | none => necessary
    | some tl1 =>
      if g.readsCommitted tl1 c.xid then necessary else gcWalk g (some tl1) (d :: rest)

/-- "New bottom of stack loses its TXNID", ft/ule.cc:323, 428. -/
def zeroBottom : List Uxr → List Uxr
  | [] => []
  | [c] => [⟨0, c.val⟩]
  | c :: cs => c :: zeroBottom cs

/-- `ule_garbage_collect`, ft/ule.cc:331-437. -/
def fullGc (g : GcState) (u : Ule) : Option Ule :=
  if u.cux.length = 1 then some u
  else (gcWalk g none u.cux).map fun c => { u with cux := zeroBottom c }

/-- The scan of `ule_simple_garbage_collection`, ft/ule.cc:301-307 and 316-325: keep everything down to
the first record older than `oldest`. -/
def keepToOldest (oldest : Txnid) : List Uxr → List Uxr
  | [] => []
  | [c] => [c]
  | c :: cs => if c.xid < oldest then [c] else c :: keepToOldest oldest cs

/-- `ule_simple_garbage_collection`, ft/ule.cc:292-326, for dictionaries with MVCC.  (The scan stops at
the bottom record in any case; when nothing is cut the stack is unchanged, including its bottom id.) -/
def simpleGc (oldest : Txnid) (u : Ule) : Ule :=
  if u.cux.length = 1 then u
  else if (keepToOldest oldest u.cux).length = u.cux.length then u
  else { u with cux := zeroBottom (keepToOldest oldest u.cux) }

/-- `ule_simple_garbage_collection` when `mvcc_needed` is false, ft/ule.cc:308-325. -/
def simpleGcNoMvcc (u : Ule) : Ule :=
  match u.cux with
  | c :: _ :: _ => { u with cux := [⟨0, c.val⟩] }
  | _ => u

/-- `toku_txn_reads_txnid`, ft/txn/txn.cc:727-743 with 600-622 (`force_recovery` off): may the
transaction with root id `root`, snapshot id `sid` and live list `live` read `x`'s version? -/
def readsTxnid (root sid : Txnid) (live : List Txnid) (x : Txnid) : Bool :=
  let oldest := live.head?.getD 0
  if oldest = 0 ∧ x < sid then true
  else if x < oldest ∨ x = root then true
  else if x > sid ∨ live.contains x then false
  else true

/-- `le_iterate_get_accepted_index` over the committed records, ft/ule.cc:2101-2125 as used by
`le_iterate_val` (2295-2414): the first accepted record, the bottom one being accepted without asking. -/
def readCommitted (acc : Txnid → Bool) : List Uxr → Option Uxr
  | [] => none
  | [c] => some c
  | c :: cs => if acc c.xid then some c else readCommitted acc cs

/-- `le_iterate_val`/`le_iterate_is_del` with a snapshot callback (ft/ule.cc:2157-2238, 2295-2414): the
innermost provisional value if the outermost provisional id is accepted, else a committed value. -/
def snapshotRead (acc : Txnid → Bool) (u : Ule) : Option (List UInt8) :=
  match u.pux with
  | o :: _ =>
    if acc o.xid then Verif.Ule.latest u
    else (readCommitted acc u.cux).bind fun r => r.val.read
  | [] => (readCommitted acc u.cux).bind fun r => r.val.read

/-- `le_pack`'s decision to drop a row with no insert anywhere, ft/ule.cc:1005-1030: the row reads as
absent afterwards, i.e. as the empty stack. -/
def dropIfAllDeleted (u : Ule) : Ule :=
  if u.cux.any Uxr.isInsert ∨ u.pux.any Uxr.isInsert then u else Verif.Ule.emptyUle

end Verif.Txn
