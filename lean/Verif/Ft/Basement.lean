import Verif.Ule.Pack
import Verif.Txn.Model

/-!
A basement node (the unit of a leaf that holds rows) and what each message does to it: `toku_le_apply_msg`
(ft/ule.cc), `toku_ft_bn_apply_msg_once`, `do_update`, `toku_ft_bn_apply_msg` (ft/node.cc) and the parts of
`bn_data` (ft/bndata.cc) they use.

Simplifications.  A row is kept unpacked (`Ule`); C07 is the round trip between that and its stored bytes.
The dmt/omt that holds the rows is a list in key order (its search is C38); `find_zero` is the first row
whose key does not precede the message's.  `workdone` counters and engine status counters are not kept.
`none` is an assertion failure.  The user's comparator is `cmp`; two keys may compare equal without being
the same bytes.  The user's update callback is `upd`, a function of key, old value and extra argument.
-/
namespace Verif.Ft
open Verif.Ule (Ule Uxr XrVal Op Xids Bytes)
open Verif.Txn (GcState)

abbrev Key := Bytes

/-- `txn_gc_info`, ft/txn/txn_manager.h (class of that name): the bounds and the optional manager state a
message application may collect garbage with.  `state` carries whether `txn_manager_state::initialized`
is set and the snapshot `init()` would take (ft/txn/txn_manager.cc:58-75); it is taken once and reused. -/
structure GcInfo where
  simpleBound : Txnid
  promoBound : Txnid
  mvccNeeded : Bool
  state : Option (Bool × GcState)

/-- `ule_get_innermost_numbytes`, ft/ule.cc:2045-2054. -/
def numBytes (u : Ule) (keylen : Nat) : Option Nat :=
  (Verif.Ule.innermost? u).map fun r => if r.isDelete then 0 else r.val.vallen + keylen

/-- Is there an insert anywhere in the stack?  ft/ule.cc:1015-1021. -/
def hasInsert (u : Ule) : Bool := u.cux.any Uxr.isInsert || u.pux.any Uxr.isInsert

/-- The test of `toku_le_apply_msg` for running full collection, ft/ule.cc:530-534, with
`ULE_MIN_STACK_SIZE_TO_FORCE_GC` = 5 and `ULE_MIN_MEMSIZE_TO_FORCE_GC` = 1 MiB (ft/ule.cc:453-456). -/
def worthFullGc (init : Bool) (u : Ule) : Bool :=
  1 < u.cux.length &&
    (init || 5 ≤ u.cux.length || 1024 * 1024 ≤ (Verif.Ule.memsizeFromUle u).getD 0)

/-- Promotion and collection after the message is applied, ft/ule.cc:516-550. -/
def tidy (g : GcInfo) (u : Ule) : Option (Ule × GcInfo) :=
  match Verif.Ule.tryPromoteOutermost u g.promoBound with
  | none => none
  | some u1 =>
    let u2 := if g.mvccNeeded then Verif.Txn.simpleGc g.simpleBound u1 else Verif.Txn.simpleGcNoMvcc u1
    match g.state with
    | none => some (u2, g)
    | some (init, st) =>
      if worthFullGc init u2 then
        (Verif.Txn.fullGc st u2).map fun u3 => (u3, { g with state := some (true, st) })
      else some (u2, g)

/-- What `toku_le_apply_msg` reports. -/
structure LeResult where
  new : Option Ule
  bytesDelta : Int
  logicalDelta : Int
  gc : GcInfo

/-- `toku_le_apply_msg`, ft/ule.cc:484-577, with the part of `le_pack` that decides whether a row remains
(ft/ule.cc:1005-1030).  `keylen` is the length of the message's key. -/
def leApply (g : GcInfo) (old : Option Ule) (keylen : Nat) (xs : Xids) (op : Op) : Option LeResult :=
  let start := old.getD Verif.Ule.emptyUle
  match (match old with | none => some 0 | some u => numBytes u keylen) with
  | none => none
  | some oldBytes =>
    match Verif.Ule.msgModify start xs op with
    | none => none
    | some (u1, dl) =>
      match tidy g u1 with
      | none => none
      | some (u2, g') =>
        if hasInsert u2 then
          (numBytes u2 keylen).map fun (nb : Nat) => ⟨some u2, (nb : Int) - oldBytes, dl, g'⟩
        else some ⟨none, 0 - oldBytes, dl, g'⟩

/-- The part of `struct ftnode_leaf_basement_node` (ft/node.h:175-190) and `bn_data` that is kept: the rows
in key order, `seqinsert`, `stat64_delta` and `m_disksize_of_keys`. -/
structure Bn where
  rows : List (Key × Ule)
  seqinsert : Nat
  numrows : Int
  numbytes : Int
  keyBytes : Int

/-- A new, empty basement node. -/
def Bn.empty : Bn := ⟨[], 0, 0, 0, 0⟩

/-- `bn_data::get_space_for_insert` (ft/bndata.cc:417-437), `get_space_for_overwrite` (387-415; the stored
key is kept, the length passed for it must be right), `delete_leafentry` (313-322), as `le_pack` chooses among
them (ft/ule.cc:1022-1043, 195-229). -/
def store (bn : Bn) (idx : Nat) (key : Key) (leKeylen : Nat) (old new : Option Ule) : Option Bn :=
  match old, new with
  | some _, some u =>
    match bn.rows[idx]? with
    | none => none
    | some (k, _) => if k.length = leKeylen then some { bn with rows := bn.rows.set idx (k, u) } else none
  | some _, none =>
    if idx < bn.rows.length then
      some { bn with rows := bn.rows.eraseIdx idx, keyBytes := bn.keyBytes - (4 + leKeylen) }
    else none
  | none, some u =>
    if idx ≤ bn.rows.length then
      some { bn with rows := bn.rows.insertIdx idx (key, u), keyBytes := bn.keyBytes + (4 + key.length) }
    else none
  | none, none => some bn

/-- `toku_ft_bn_apply_msg_once`, ft/node.cc:1147-1228.  Returns the node, the logical row-count correction
and the collection state. -/
def applyOnce (bn : Bn) (key : Key) (idx leKeylen : Nat) (le : Option Ule) (g : GcInfo) (xs : Xids) (op : Op) :
    Option (Bn × Int × GcInfo) :=
  match leApply g le key.length xs op with
  | none => none
  | some r =>
    match store bn idx key leKeylen le r.new with
    | none => none
    | some bn' =>
      let dr : Int := match le, r.new with
        | some _, none => -1
        | none, some _ => 1
        | _, _ => 0
      some ({ bn' with numrows := bn'.numrows + dr, numbytes := bn'.numbytes + r.bytesDelta }, r.logicalDelta, r.gc)

/-- The message types, `enum ft_msg_type`, ft/msg.h:46-70. -/
inductive MsgType where
  | insert (v : Bytes)
  | insertNoOverwrite (v : Bytes)
  | deleteAny
  | abortAny
  | commitAny
  | commitBroadcastAll
  | commitBroadcastTxn
  | abortBroadcastTxn
  | optimize
  | optimizeForUpgrade
  | update (extra : Bytes)
  | updateBroadcastAll (extra : Bytes)
  | noop
  deriving DecidableEq, Repr

/-- `ft_msg`, ft/msg.h:150-190 (its sequence number is kept in the message buffer model). -/
structure Msg where
  type : MsgType
  key : Key
  xids : Xids
  deriving DecidableEq, Repr

/-- `bn_data::find_zero` with `toku_msg_leafval_heaviside` (ft/bndata.h:160-181): the position of the first
row whose key is not before `k`, and that row if its key compares equal. -/
def findZero (cmp : Key → Key → Ordering) (k : Key) : List (Key × Ule) → Nat × Option (Key × Ule)
  | [] => (0, none)
  | r :: rs =>
    match cmp r.1 k with
    | .lt => let (i, f) := findZero cmp k rs; (i + 1, f)
    | .eq => (0, some r)
    | .gt => (0, none)

/-- Where an insert goes, ft/node.cc:1403-1428: when inserts look sequential, the end is tried first. -/
def findForInsert (cmp : Key → Key → Ordering) (seq : Nat) (k : Key) (rows : List (Key × Ule)) :
    Nat × Option (Key × Ule) :=
  if seq ≠ 0 then
    match rows.getLast? with
    | some r => if cmp r.1 k = .lt then (rows.length, none) else findZero cmp k rows
    | none => findZero cmp k rows
  else findZero cmp k rows

/-- The window test of ft/node.cc:1440-1452. -/
def nextSeq (doing s idx : Nat) : Nat :=
  let w := s / 16
  let w := if w = 0 then 1 else w
  let w := if w > 32 then 32 else w
  if s - idx ≤ w then doing + 1 else 0

/-- The outcome of the user's update callback: it does not call `set_val`, or calls it once with a value or
with NULL (`setval_fun`, ft/node.cc:1257-1285). -/
inductive UpdResult where
  | keep
  | set (v : Bytes)
  | remove
  deriving DecidableEq, Repr

abbrev Upd := Key → Option Bytes → Bytes → UpdResult

/-- `do_update` and `setval_fun`, ft/node.cc:1257-1372. -/
def doUpdate (upd : Upd) (bn : Bn) (key : Key) (extra : Bytes) (idx leKeylen : Nat) (le : Option Ule) (g : GcInfo)
    (xs : Xids) : Option (Bn × Int × GcInfo) :=
  match upd key (le.bind Verif.Ule.latest) extra with
  | .keep => some (bn, 0, g)
  | .set v => applyOnce bn key idx leKeylen le g xs (.insert v)
  | .remove => applyOnce bn key idx leKeylen le g xs .delete

/-- The loops over all rows of `toku_ft_bn_apply_msg`, ft/node.cc:1491-1531, 1538-1576, 1634-1668: apply
`f` at `idx`; if that removed the row, the next one has moved to `idx`, otherwise go on to `idx + 1`.  `fuel`
is the number of rows left, which is what bounds the C++ loops. -/
def eachRow (f : Bn → Nat → Key × Ule → GcInfo → Option (Bn × Int × GcInfo)) :
    Nat → Nat → Bn → Int → GcInfo → Option (Bn × Int × GcInfo)
  | 0, _, bn, d, g => some (bn, d, g)
  | fuel + 1, idx, bn, d, g =>
    match bn.rows[idx]? with
    | none => some (bn, d, g)
    | some r =>
      match f bn idx r g with
      | none => none
      | some (bn', d', g') =>
        eachRow f fuel (if bn'.rows.length = bn.rows.length then idx + 1 else idx) bn' (d + d') g'

/-- `le_is_clean`, ft/ule.cc:1373-1379, on the unpacked row. -/
def isClean (u : Ule) : Bool := u.cux.length = 1 && u.pux.isEmpty

/-- `le_has_xids`, ft/ule.cc:1382-1391, on the unpacked row (C08 relates it to the stored one). -/
def hasXids (u : Ule) (xs : Xids) : Option Bool :=
  match xs with
  | [] => none
  | x :: _ => if x = Verif.Ule.txnidNone then none else some (u.pux.head?.map (·.xid) = some x)

/-- One step of a broadcast to rows that are not clean, ft/node.cc:1491-1531. -/
def stepUnclean (op : Op) (xs : Xids) (bn : Bn) (idx : Nat) (r : Key × Ule) (g : GcInfo) : Option (Bn × Int × GcInfo) :=
  if isClean r.2 then some (bn, 0, g) else applyOnce bn r.1 idx r.1.length (some r.2) g xs op

/-- One step of a broadcast to the rows a transaction wrote, ft/node.cc:1538-1576. -/
def stepTxn (op : Op) (xs : Xids) (bn : Bn) (idx : Nat) (r : Key × Ule) (g : GcInfo) : Option (Bn × Int × GcInfo) :=
  match hasXids r.2 xs with
  | none => none
  | some true => applyOnce bn r.1 idx r.1.length (some r.2) g xs op
  | some false => some (bn, 0, g)

/-- One step of an update broadcast, ft/node.cc:1634-1668. -/
def stepUpdate (upd : Upd) (extra : Bytes) (xs : Xids) (bn : Bn) (idx : Nat) (r : Key × Ule) (g : GcInfo) :
    Option (Bn × Int × GcInfo) :=
  doUpdate upd bn r.1 extra idx r.1.length (some r.2) g xs

/-- `toku_ft_bn_apply_msg`, ft/node.cc:1377-1676. -/
def applyMsg (cmp : Key → Key → Ordering) (upd : Upd) (bn0 : Bn) (m : Msg) (g : GcInfo) :
    Option (Bn × Int × GcInfo) :=
  let doing := bn0.seqinsert
  let bn := { bn0 with seqinsert := 0 }
  let ins (v : Op) : Option (Bn × Int × GcInfo) :=
    let (idx, f) := findForInsert cmp doing m.key bn.rows
    (applyOnce bn m.key idx ((f.map (·.1.length)).getD 0) (f.map (·.2)) g m.xids v).map fun (b, d, g') =>
      ({ b with seqinsert := nextSeq doing b.rows.length idx }, d, g')
  let point (op : Op) : Option (Bn × Int × GcInfo) :=
    match findZero cmp m.key bn.rows with
    | (_, none) => some (bn, 0, g)
    | (idx, some r) => applyOnce bn m.key idx r.1.length (some r.2) g m.xids op
  let all (f : Bn → Nat → Key × Ule → GcInfo → Option (Bn × Int × GcInfo)) : Option (Bn × Int × GcInfo) :=
    eachRow f bn.rows.length 0 bn 0 g
  match m.type with
  | .insert v => ins (.insert v)
  | .insertNoOverwrite v => ins (.insertNoOverwrite v)
  | .deleteAny => point .delete
  | .abortAny => point .abort
  | .commitAny => point .commit
  | .commitBroadcastAll => all (stepUnclean .commitAll m.xids)
  | .optimize => all (stepUnclean .optimize m.xids)
  | .optimizeForUpgrade => all (stepUnclean .optimize m.xids)
  | .commitBroadcastTxn => all (stepTxn .commit m.xids)
  | .abortBroadcastTxn => all (stepTxn .abort m.xids)
  | .update extra =>
    match findZero cmp m.key bn.rows with
    | (idx, none) => doUpdate upd bn m.key extra idx 0 none g m.xids
    | (idx, some r) => doUpdate upd bn m.key extra idx r.1.length (some r.2) g m.xids
  | .updateBroadcastAll extra => (all (stepUpdate upd extra m.xids)).map fun (b, _, g') => (b, 0, g')
  | .noop => some (bn, 0, g)

/-- `toku_le_garbage_collect`, ft/ule.cc:623-694: promote, then full collection if there is more than one
committed record.  Called only by `ft_basement_node_gc_once` below. -/
def leGc (promoBound : Txnid) (st : GcState) (u : Ule) (keylen : Nat) : Option (Option Ule × Int) :=
  match numBytes u keylen with
  | none => none
  | some ob =>
    match Verif.Ule.tryPromoteOutermost u promoBound with
    | none => none
    | some u1 =>
      match (if 1 < u1.cux.length then Verif.Txn.fullGc st u1 else some u1) with
      | none => none
      | some u2 =>
        if hasInsert u2 then (numBytes u2 keylen).map fun (nb : Nat) => (some u2, (nb : Int) - ob)
        else some (none, 0 - ob)

/-- `toku_le_worth_running_garbage_collection`, ft/ule.cc:579-603, on the unpacked row. -/
def worthGc (promoBound : Txnid) (u : Ule) : Bool :=
  if isClean u then false
  else 1 < u.cux.length || u.pux.head?.any fun r => r.xid < promoBound

/-- `ft_basement_node_gc_once`, ft/node.cc:1876-1939. -/
def gcOnce (promoBound : Txnid) (st : GcState) (bn : Bn) (idx : Nat) (r : Key × Ule) (g : GcInfo) :
    Option (Bn × Int × GcInfo) :=
  if worthGc promoBound r.2 then
    match leGc promoBound st r.2 r.1.length with
    | none => none
    | some (new, db) =>
      (store bn idx r.1 r.1.length (some r.2) new).map fun bn' =>
        ({ bn' with numrows := bn'.numrows + (if new.isSome then 0 else -1), numbytes := bn'.numbytes + db }, 0, g)
  else some (bn, 0, g)

/-- `basement_node_gc_all_les`, ft/node.cc:1941-1968. -/
def gcAll (promoBound : Txnid) (st : GcState) (bn : Bn) : Option Bn :=
  (eachRow (gcOnce promoBound st) bn.rows.length 0 bn 0 ⟨0, promoBound, true, none⟩).map (·.1)

/-- What can happen to a basement node: a message is applied, or it is garbage collected. -/
inductive LeafEv where
  | msg (m : Msg) (g : GcInfo)
  | gc (promoBound : Txnid) (st : GcState)

/-- Events applied one after another; the integer is the sum of the logical row-count corrections. -/
def runLeaf (cmp : Key → Key → Ordering) (upd : Upd) (bn : Bn) : List LeafEv → Option (Bn × Int)
  | [] => some (bn, 0)
  | .msg m g :: es =>
    match applyMsg cmp upd bn m g with
    | none => none
    | some (bn', d, _) => (runLeaf cmp upd bn' es).map fun (b, d') => (b, d + d')
  | .gc pb st :: es =>
    match gcAll pb st bn with
    | none => none
    | some bn' => runLeaf cmp upd bn' es

end Verif.Ft
