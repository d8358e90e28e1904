/-
Model of the unpacked leaf entry (the MVCC version stack of one row), ft/ule.cc.

C++ assertion failures (`invariant`, `assert`) are the outcome `none`: a run that
reaches one aborts the process, so no property may hold "because of" it.
-/
namespace Verif.Ule

/-- Transaction ids, `uint64_t` in the C++ (ft/txn/txn.h, `TXNID`).  Simplification: unbounded;
the id counter would need 2^64 increments to wrap. -/
notation "Txnid" => Nat

/-- Values are byte strings (a `DBT`'s `data`,`size`). -/
abbrev Bytes := List UInt8

/-- `TXNID_NONE`, ft/txn/txn.h: the id of "no transaction". -/
def txnidNone : Txnid := 0

/-- `MAX_NESTED_TRANSACTIONS`/`MAX_TRANSACTION_RECORDS`, ft/txn/xids.h:63-68. -/
def maxTransactionRecords : Nat := 254

/-- ft/ule.cc:104-115 and ft/leafentry.h (`XR_INSERT`, `XR_DELETE`, `XR_PLACEHOLDER`): the type of a
transaction record together with the value an insert carries. -/
inductive XrVal where
  | insert (v : Bytes)
  | delete
  | placeholder
  deriving DecidableEq, Repr

/-- `struct uxr`, ft/ule-internal.h:61-68 (type, vallen/valp, xid). -/
structure Uxr where
  xid : Txnid
  val : XrVal
  deriving DecidableEq, Repr

/-- `uxr_is_insert`, ft/ule.cc:2066-2069. -/
def Uxr.isInsert (u : Uxr) : Bool := match u.val with | .insert _ => true | _ => false
/-- `uxr_is_delete`, ft/ule.cc:2075-2078. -/
def Uxr.isDelete (u : Uxr) : Bool := match u.val with | .delete => true | _ => false
/-- `uxr_is_placeholder`, ft/ule.cc:2084-2087. -/
def Uxr.isPlaceholder (u : Uxr) : Bool := match u.val with | .placeholder => true | _ => false

/-- `struct ule`, ft/ule-internal.h:73-79.  The C++ keeps one array
`uxrs[0 .. num_cuxrs+num_puxrs)`.  Here it is split:
`cux` = committed records, newest first (`uxrs[num_cuxrs-1] … uxrs[0]`);
`pux` = provisional records, outermost first (`uxrs[num_cuxrs] … `), i.e. in array order. -/
structure Ule where
  cux : List Uxr
  pux : List Uxr
  deriving DecidableEq, Repr

/-- `committed_delete`, ft/ule.cc:104-109. -/
def committedDelete : Uxr := ⟨txnidNone, .delete⟩

/-- `ule_init_empty_ule`, ft/ule.cc:1591-1596. -/
def emptyUle : Ule := ⟨[committedDelete], []⟩

/-- `ule_get_innermost_uxr`, ft/ule.cc:1937-1941. -/
def innermost? (u : Ule) : Option Uxr :=
  match u.cux with
  | [] => none
  | c :: _ => some (u.pux.getLast?.getD c)

/-- XIDS: a message's transaction ids, outermost first (ft/txn/xids.h, ft/txn/xids.cc:82-152);
the empty list is the root (no transaction). -/
abbrev Xids := List Txnid

/-- `toku_xids_get_innermost_xid`, ft/txn/xids.cc:179-187. -/
def innermostXid (xs : Xids) : Txnid := xs.getLast?.getD txnidNone

/-- `ule_get_first_empty_uxr`'s bound check followed by a provisional push
(ft/ule.cc:1892-1934, 1944-1948; also `ule_push_placeholder_uxr`). -/
def pushProvisional (u : Ule) (r : Uxr) : Option Ule :=
  if u.pux.length < maxTransactionRecords - 1 then some { u with pux := u.pux ++ [r] } else none

/-- A committed push: `ule_push_insert_uxr`/`ule_push_delete_uxr` with `is_committed`
(ft/ule.cc:1892-1924). -/
def pushCommitted (u : Ule) (r : Uxr) : Option Ule :=
  if u.pux = [] then some { u with cux := r :: u.cux } else none

/-- `ule_promote_provisional_innermost_to_committed`, ft/ule.cc:1652-1674. -/
def promoteToCommitted (u : Ule) : Option Ule :=
  match u.pux with
  | [] => none
  | outermost :: _ =>
    match innermost? u with
    | none => none
    | some inn =>
      if inn.isPlaceholder then none
      else pushCommitted { u with pux := [] } ⟨outermost.xid, inn.val⟩

/-- `ule_promote_provisional_innermost_to_index`, ft/ule.cc:1690-1712, where `k` is
`index - num_cuxrs` (so `index >= num_cuxrs` is built in). -/
def promoteToIndex (u : Ule) (k : Nat) : Option Ule :=
  if k + 1 < u.pux.length then
    match innermost? u, u.pux[k]? with
    | some inn, some f =>
      if inn.isPlaceholder then none
      else pushProvisional { u with pux := u.pux.take k } ⟨f.xid, inn.val⟩
    | _, _ => none
  else none

/-- The loop of ft/ule.cc:1627-1638: number of leading ids on which the row's provisional records
and the message's ids agree (`ica_index - num_cuxrs + 1`). -/
def matchLen : List Uxr → Xids → Nat
  | f :: fs, x :: xs => if x = f.xid then matchLen fs xs + 1 else 0
  | _, _ => 0

/-- `ule_do_implicit_promotions`, ft/ule.cc:1621-1650. -/
def implicitPromotions (u : Ule) (xs : Xids) : Option Ule :=
  if u.pux = [] then some u
  else if xs = [] then none           -- invariant(num_xids > 0), line 1626
  else
    let m := matchLen u.pux xs
    if m = 0 then promoteToCommitted u
    else if m < u.pux.length then promoteToIndex u (m - 1)
    else some u

/-- `ule_remove_innermost_uxr`, ft/ule.cc:1952-1964. -/
def removeInnermost (u : Ule) : Option Ule :=
  if u.cux = [] then none
  else if u.pux ≠ [] then some { u with pux := u.pux.dropLast }
  else match u.cux with
    | [c] => if c.xid = txnidNone then some { u with cux := [] } else none
    | _ => none

/-- The second loop of `ule_add_placeholders`, ft/ule.cc:2011-2014. -/
def pushPlaceholders (u : Ule) : Xids → Option Ule
  | [] => some u
  | x :: xs =>
    if u.cux = [] then none
    else match pushProvisional u ⟨x, .placeholder⟩ with
      | none => none
      | some u' => pushPlaceholders u' xs

/-- `ule_add_placeholders`, ft/ule.cc:1995-2015.  With `num_xids = 0` the bound `num_xids-1` wraps to
`UINT32_MAX` and the first `toku_xids_get_xid` fails its invariant, hence `none`. -/
def addPlaceholders (u : Ule) (xs : Xids) : Option Ule :=
  if u.cux = [] then none
  else if xs.length < u.pux.length then none
  else if u.pux.map (·.xid) ≠ xs.take u.pux.length then none
  else if xs = [] then none
  else pushPlaceholders u (xs.dropLast.drop u.pux.length)

/-- `ule_get_innermost_xid`, ft/ule.cc:1966-1975. -/
def uleInnermostXid (u : Ule) : Option Txnid := (innermost? u).map (·.xid)

/-- `ule_prepare_for_new_uxr`, ft/ule.cc:1782-1796. -/
def prepareForNewUxr (u : Ule) (xs : Xids) : Option Ule :=
  match uleInnermostXid u with
  | none => none
  | some ix =>
    let thisXid := innermostXid xs
    if thisXid = txnidNone ∧ ix = txnidNone then removeInnermost u
    else if u.pux ≠ [] ∧ ix = thisXid then removeInnermost u
    else addPlaceholders u xs

/-- The push that ends `ule_apply_insert`/`ule_apply_delete` (ft/ule.cc:1738, 1759, 1773): committed
exactly when the message has no transaction. -/
def pushNew (u : Ule) (xs : Xids) (v : XrVal) : Option Ule :=
  let thisXid := innermostXid xs
  if thisXid = txnidNone then pushCommitted u ⟨thisXid, v⟩ else pushProvisional u ⟨thisXid, v⟩

/-- prepare, then push. -/
def writeUxr (u : Ule) (xs : Xids) (v : XrVal) : Option Ule :=
  (prepareForNewUxr u xs).bind fun u' => pushNew u' xs v

/-- `IS_VALID_LEN`, ft/ule.cc:115. -/
def isValidLen (v : Bytes) : Bool := v.length < 2 ^ 31

/-- `ule_apply_insert`, ft/ule.cc:1743-1761; returns the logical row count correction. -/
def applyInsert (u : Ule) (xs : Xids) (v : Bytes) : Option (Ule × Int) :=
  if isValidLen v then
    match innermost? u with
    | none => none
    | some inn => (writeUxr u xs (.insert v)).map fun u' => (u', if inn.isInsert then -1 else 0)
  else none

/-- `ule_apply_insert_no_overwrite`, ft/ule.cc:1721-1740. -/
def applyInsertNoOverwrite (u : Ule) (xs : Xids) (v : Bytes) : Option (Ule × Int) :=
  if isValidLen v then
    match innermost? u with
    | none => none
    | some inn =>
      if inn.isInsert then some (u, -1)
      else (writeUxr u xs (.insert v)).map fun u' => (u', 0)
  else none

/-- `ule_apply_delete`, ft/ule.cc:1764-1775. -/
def applyDelete (u : Ule) (xs : Xids) : Option (Ule × Int) :=
  match innermost? u with
  | none => none
  | some inn => (writeUxr u xs .delete).map fun u' => (u', if inn.isDelete then 1 else 0)

/-- `ule_remove_innermost_placeholders`, ft/ule.cc:1981-1988 (committed records are never
placeholders, so only `pux` is popped; a committed placeholder would fail `invariant(num_puxrs>0)`). -/
def removeInnermostPlaceholders (u : Ule) : Option Ule :=
  match u.cux with
  | [] => none
  | c :: _ =>
    let p := (u.pux.reverse.dropWhile Uxr.isPlaceholder).reverse
    if p = [] ∧ c.isPlaceholder then none else some { u with pux := p }

/-- The value `ule_apply_abort` returns, ft/ule.cc:1819-1833. -/
def abortRowDelta (u : Ule) (inn : Uxr) : Int :=
  let single := u.pux.length = 1 ∧ u.cux.length = 1
  let bottom := u.cux.getLast?
  if inn.isDelete then
    if single ∧ bottom.any Uxr.isDelete then 0 else 1
  else if inn.isInsert then
    if single ∧ bottom.any Uxr.isInsert then 0 else -1
  else 0

/-- `ule_apply_abort`, ft/ule.cc:1806-1842. -/
def applyAbort (u : Ule) (xs : Xids) : Option (Ule × Int) :=
  let thisXid := innermostXid xs
  if thisXid = txnidNone then none
  else match innermost? u with
    | none => none
    | some inn =>
      if u.pux ≠ [] ∧ inn.xid = thisXid then
        ((removeInnermost u).bind removeInnermostPlaceholders).map
          fun u' => (u', abortRowDelta u inn)
      else some (u, 0)

/-- `ule_apply_broadcast_commit_all`, ft/ule.cc:1844-1849. -/
def applyCommitAll (u : Ule) : Option Ule :=
  (innermost? u).map fun inn => ⟨[⟨txnidNone, inn.val⟩], []⟩

/-- `ule_apply_commit`, ft/ule.cc:1859-1885. -/
def applyCommit (u : Ule) (xs : Xids) : Option Ule :=
  let thisXid := innermostXid xs
  if thisXid = txnidNone then none
  else match innermost? u with
    | none => none
    | some inn =>
      if u.pux ≠ [] ∧ inn.xid = thisXid then
        if u.pux.length = 1 then promoteToCommitted u
        else promoteToIndex u (u.pux.length - 2)
      else some u

/-- `ule_optimize`, ft/ule.cc:774-789. -/
def applyOptimize (u : Ule) (xs : Xids) : Option Ule :=
  match u.pux with
  | [] => some u
  | outermost :: _ =>
    match xs with
    | [] => promoteToCommitted u
    | [x] => if x = txnidNone ∨ outermost.xid < x then promoteToCommitted u else some u
    | _ => none

/-- The message types `msg_modify_ule` handles, ft/ule.cc:722-755 (point and broadcast forms of
commit/abort/optimize share a case there).  Update messages are turned into insert/delete messages
before they get here (ft/node.cc `do_update`). -/
inductive Op where
  | insert (v : Bytes)
  | insertNoOverwrite (v : Bytes)
  | delete
  | abort
  | commit
  | commitAll
  | optimize
  deriving DecidableEq, Repr

/-- Types that skip implicit promotion, ft/ule.cc:718. -/
def Op.isOptimize : Op → Bool
  | .optimize => true
  | _ => false

/-- The switch of `msg_modify_ule`, ft/ule.cc:721-766. -/
def applyOp (u : Ule) (xs : Xids) : Op → Option (Ule × Int)
  | .insert v => applyInsert u xs v
  | .insertNoOverwrite v => applyInsertNoOverwrite u xs v
  | .delete => applyDelete u xs
  | .abort => applyAbort u xs
  | .commit => (applyCommit u xs).map fun u' => (u', 0)
  | .commitAll => (applyCommitAll u).map fun u' => (u', 0)
  | .optimize => (applyOptimize u xs).map fun u' => (u', 0)

/-- `msg_modify_ule`, ft/ule.cc:713-768. -/
def msgModify (u : Ule) (xs : Xids) (op : Op) : Option (Ule × Int) :=
  if xs.length < maxTransactionRecords then
    if op.isOptimize then applyOp u xs op
    else (implicitPromotions u xs).bind fun u' => applyOp u' xs op
  else none

/-- The modified stack without the row-count correction. -/
def msgModifyU (u : Ule) (xs : Xids) (op : Op) : Option Ule := (msgModify u xs op).map (·.1)

/-- A sequence of messages applied in order (ft/node.cc `toku_ft_bn_apply_msg` on one key). -/
def runMsgs (u : Ule) : List (Xids × Op) → Option Ule
  | [] => some u
  | (xs, op) :: rest => (msgModifyU u xs op).bind fun u' => runMsgs u' rest

/-- `ule_try_promote_provisional_outermost`, ft/ule.cc:1676-1685. -/
def tryPromoteOutermost (u : Ule) (oldestPossibleLive : Txnid) : Option Ule :=
  match u.pux with
  | [] => some u
  | f :: _ => if f.xid < oldestPossibleLive then promoteToCommitted u else some u

/-- The value a record presents to a reader: a value, or nothing.  A placeholder is never read
(`le_latest_val` & co. only look at inserts/deletes); it maps to `none` here. -/
def XrVal.read : XrVal → Option Bytes
  | .insert v => some v
  | _ => none

/-- `le_latest_is_del` / `le_latest_val_and_len` (ft/ule.cc:1331-1371, 1393-1452) on the unpacked form:
what a reader that ignores isolation (`C_READ_ANY`) sees. -/
def latest (u : Ule) : Option Bytes := (innermost? u).bind fun r => r.val.read

end Verif.Ule
