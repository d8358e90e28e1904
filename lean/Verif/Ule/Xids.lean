import Verif.Codec.Bytes
import Verif.Ule.Model

/-! Transaction id lists: ft/txn/xids.cc, and their use in txn begin, ft/txn/txn.cc:104-187. -/
namespace Verif.Ule
open Verif.Codec (le ofLe P ret fail andThen num skip rep each Reads)

/-- `toku_xids_can_create_child`, ft/txn/xids.cc:91-95 (`none` = the invariant fails). -/
def canCreateChild (xs : Xids) : Option Bool :=
  if xs.length < maxTransactionRecords then some (xs.length + 1 ≠ maxTransactionRecords) else none

/-- `toku_xids_create_unknown_child` then `toku_xids_finalize_with_child`, ft/txn/xids.cc:97-126. -/
def appendXid (xs : Xids) (x : Txnid) : Option Xids :=
  if xs.length + 1 < maxTransactionRecords then some (xs ++ [x]) else none

/-- `toku_xids_create_child`, ft/txn/xids.cc:130-144: inner `none` = EINVAL. -/
def createChild (xs : Xids) (x : Txnid) : Option (Option Xids) :=
  (canCreateChild xs).bind fun ok => if ok then (appendXid xs x).map some else some none

/-- The id-list part of `toku_txn_begin_with_xid` for a read-write transaction, ft/txn/txn.cc:104-187:
`parent = none` for a root transaction; the check is made before anything else happens, the list is built
last.  Inner `none` = EINVAL. -/
def beginXids (parent : Option Xids) (x : Txnid) : Option (Option Xids) :=
  match parent with
  | none => (appendXid [] x).map some
  | some p => (canCreateChild p).bind fun ok => if ok then (appendXid p x).map some else some none

/-- Begin transactions each inside the last one begun, counting the EINVALs; after a failure the parent is
still there to try again. -/
def beginNested (parent : Option Xids) (failures : Nat) : List Txnid → Option (Option Xids × Nat)
  | [] => some (parent, failures)
  | x :: xs => (beginXids parent x).bind fun r => match r with
    | some c => beginNested (some c) failures xs
    | none => beginNested parent (failures + 1) xs

/-- `wbuf_nocrc_xids`, ft/txn/xids.cc:228-234. -/
def xidsEncode (xs : Xids) : Bytes := le 1 xs.length ++ xs.flatMap (le 8)

/-- `toku_xids_create_from_buffer`, ft/txn/xids.cc:146-158. -/
def xidsDecode : P Xids := andThen (num 1) fun n =>
  if n < maxTransactionRecords then rep (num 8) n else fail

/-- `toku_xids_get_serialize_size`, ft/txn/xids.cc:213-220. -/
def xidsSerializeSize (xs : Xids) : Nat := 1 + 8 * xs.length

end Verif.Ule
