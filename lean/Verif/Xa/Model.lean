/-!
Listing the prepared transactions: `DB_ENV->txn_recover` and `txn_xa_recover` (src/ydb.cc 1771-1804)
down to `toku_txn_manager_recover_root_txn` (ft/txn/txn_manager.cc 938-987).

Simplified: a root transaction is its id and whether it is prepared. Ids are unbounded. The XA id that
is copied out is a field of the transaction and stands for it.
-/

namespace Verif.Xa

/-- A live root transaction: its `txnid.parent_id64` and whether its state is `TOKUTXN_PREPARING`. -/
structure Root where
  xid : Nat
  prep : Bool
  deriving DecidableEq, Repr

/-- `TXN_MANAGER`: the live root transactions (kept sorted by id), `last_xid_seen_for_recover` and the
last id given out. -/
structure Mgr where
  roots : List Root
  last : Nat
  maxXid : Nat
  deriving DecidableEq, Repr

/-- `DB_FIRST` and `DB_NEXT` (buildheader/make_tdb.cc). -/
def DB_FIRST : Nat := 7
def DB_NEXT : Nat := 16

/-- The loop of `toku_txn_manager_recover_root_txn`, txn_manager.cc 959-981. Writing past the caller's
array is a failure, `none`. -/
def scan (count : Nat) : List Root → Nat → List Nat → Option (Nat × List Nat)
  | [], last, acc => some (last, acc)
  | r :: rs, last, acc =>
    if r.xid ≤ last then scan count rs last acc else
    if r.prep && decide (count ≤ acc.length) then none else
    let acc := if r.prep then acc ++ [r.xid] else acc
    if count ≤ acc.length then some (r.xid, acc) else scan count rs r.xid acc

/-- What a call returns. -/
inductive Res where
  | ok (ids : List Nat)
  | einval
  | stop
  deriving DecidableEq, Repr

/-- `toku_txn_manager_recover_root_txn`, txn_manager.cc 938-987. -/
def recover (m : Mgr) (count flags : Nat) : Mgr × Res :=
  if flags ≠ DB_FIRST ∧ flags ≠ DB_NEXT then (m, .einval) else
  let last := if flags = DB_FIRST then 0 else m.last
  match scan count m.roots last [] with
  | none => ({ m with last := last }, .stop)
  | some (last, ids) =>
    if ids.length ≤ count then ({ m with last := last }, .ok ids) else ({ m with last := last }, .stop)

/-- A root transaction begins: it gets the next id (txn_manager.cc 600-672, inserted at the end of
`live_root_txns`). -/
def beginRoot (m : Mgr) : Mgr :=
  { m with maxXid := m.maxXid + 1, roots := m.roots ++ [⟨m.maxXid + 1, false⟩] }

/-- A root transaction is prepared (ft/txn/txn.cc 491-511). -/
def prepare (m : Mgr) (x : Nat) : Mgr :=
  { m with roots := m.roots.map (fun r => if r.xid = x then { r with prep := true } else r) }

/-- A root transaction ends (txn_manager.cc 688-760): removed from `live_root_txns`. -/
def finish (m : Mgr) (x : Nat) : Mgr :=
  { m with roots := m.roots.filter (fun r => decide (r.xid ≠ x)) }

/-- Work of other threads between the calls of a listing; `other` is the begin of a nested or read-only
transaction, which uses up an id without becoming a live root. -/
inductive Work where
  | begin
  | other
  | prepare (x : Nat)
  | finish (x : Nat)
  deriving DecidableEq, Repr

/-- One such piece of work. -/
def work (m : Mgr) : Work → Mgr
  | .begin => beginRoot m
  | .other => { m with maxXid := m.maxXid + 1 }
  | .prepare x => prepare m x
  | .finish x => finish m x

/-- A manager without transactions. -/
def Mgr.init : Mgr := ⟨[], 0, 0⟩

end Verif.Xa
