import Verif.Txn.Model

/-! Building an index while the dictionary is in use: what one source row turns into.

Model of src/indexer-undo-do.cc (all of it but the test hooks) and of `indexer_fill_prov_info`'s pins and
`build_index`'s inner loop, src/indexer.cc:410-482, 560-580.

The builder reads the whole version stack of a source row and sends, to every destination dictionary, the
messages that give its rows the same history. -/
namespace Verif.Hot
open Verif.Ule

/-- `TOKUTXN_STATE`, ft/txn/txn_state.h:43-49. -/
inductive TxState where
  | live | preparing | committing | aborting | retired
  deriving DecidableEq, Repr

/-- A message sent to a destination dictionary. -/
structure Msg where
  key : Bytes
  xids : Xids
  op : Op
  deriving DecidableEq, Repr

/-- The user's two callbacks for one destination dictionary and one source key, as functions of the source
value: `generate_row_for_put` (keys and values) and `generate_row_for_del` (keys), as called by
`indexer_generate_hot_keys_vals`, src/indexer-undo-do.cc:475-501.  Simplification: they never fail. -/
structure Gen where
  put : Bytes → List (Bytes × Bytes)
  del : Bytes → List Bytes

/-- `indexer_set_xid`, src/indexer-undo-do.cc:443-460. -/
def setXid (x : Txnid) : Xids := if x = txnidNone then [] else [x]

/-- The deletes of the "undo" part, src/indexer-undo-do.cc:169-190 and 310-344: the rows of the previous
version, if it was an insert. -/
def undoMsgs (g : Gen) (xs : Xids) : XrVal → Option (List Msg)
  | .delete => some []
  | .insert v => some ((g.del v).map fun k => ⟨k, xs, .delete⟩)
  | .placeholder => none

/-- The inserts of the "do" part, src/indexer-undo-do.cc:197-221 and 349-386: the rows of this version. -/
def doMsgs (g : Gen) (xs : Xids) : XrVal → Option (List Msg)
  | .delete => some []
  | .insert v => some ((g.put v).map fun kv => ⟨kv.1, xs, .insert kv.2⟩)
  | .placeholder => none

/-- `indexer_ft_commit` on each of the collected keys, src/indexer-undo-do.cc:223-226, 393-396, 625-653: nothing
is sent for the empty list of transactions. -/
def commitMsgs (xs : Xids) (keys : List Bytes) : List Msg :=
  if xs = [] then [] else keys.map fun k => ⟨k, xs, .commit⟩

/-- The loop of `indexer_undo_do_committed`, src/indexer-undo-do.cc:142-231, from the oldest record to the
newest; `prev` is the record before (`none` for the first one). -/
def committedLoop (g : Gen) : Option XrVal → List Uxr → Option (List Msg)
  | _, [] => some []
  | prev, r :: rs =>
    let xs := setXid r.xid
    if r.isPlaceholder then none
    else
      (match prev with
        | none => some []
        | some p => undoMsgs g xs p).bind fun undo =>
      (doMsgs g xs r.val).bind fun do_ =>
      (committedLoop g (some r.val) rs).map fun rest =>
        undo ++ do_ ++ commitMsgs xs ((undo ++ do_).map Msg.key) ++ rest

/-- The ids the messages of a provisional record carry, src/indexer-undo-do.cc:286-305: the outermost id always,
an inner id when its transaction is live; a preparing inner one is an assertion failure. -/
def provXids (first : Bool) (xs : Xids) (r : Uxr) : TxState → Option Xids
  | .live => some (if first then setXid r.xid else xs ++ [r.xid])
  | .preparing => if first then some (setXid r.xid) else none
  | _ => some (if first then setXid r.xid else xs)

/-- Are the messages sent through the transaction (1), or without it, the deleted keys being committed at the
end (2)?  src/indexer-undo-do.cc:322-339, 362-380. -/
def throughTxn : TxState → Bool
  | .live | .preparing => true
  | _ => false

/-- The loop of `indexer_undo_do_provisional`, src/indexer-undo-do.cc:273-391, from the outermost record to the
innermost, with the state of each record's transaction.  `prev` is the value of the last record before this one
that is no placeholder (`indexer_find_prev_xr`, 517-531; a committed record is never a placeholder, so there
always is one).  Returns the messages, the keys to commit and the final list of ids. -/
def provLoop (g : Gen) (outer : TxState) : Bool → Xids → XrVal → List (Uxr × TxState) →
    Option (List Msg × List Bytes × Xids)
  | _, xs, _, [] => some ([], [], xs)
  | first, xs, prev, (r, st) :: rest =>
    if st = .aborting then some ([], [], xs)
    else (provXids first xs r st).bind fun xs' =>
      if outer ≠ .live ∧ first = false ∧ st ≠ .retired then none
      else if r.isPlaceholder then provLoop g outer false xs' prev rest
      else
        (undoMsgs g xs' prev).bind fun undo =>
        (doMsgs g xs' r.val).bind fun do_ =>
        (provLoop g outer false xs' r.val rest).map fun (ms, ks, xsEnd) =>
          (undo ++ do_ ++ ms, (if throughTxn outer then [] else undo.map Msg.key) ++ ks, xsEnd)

/-- `indexer_undo_do_provisional`, src/indexer-undo-do.cc:249-407, without the pins. -/
def provisional (g : Gen) (u : Ule) (states : List TxState) : Option (List Msg) :=
  match states, u.cux with
  | [], _ => some []
  | _, [] => none
  | outer :: _, c :: _ =>
    (provLoop g outer true [] c.val (u.pux.zip states)).map fun (ms, ks, xs) => ms ++ commitMsgs xs ks

/-- `indexer_undo_do`, src/indexer-undo-do.cc:409-420: the messages for one destination dictionary. -/
def undoDo (g : Gen) (u : Ule) (states : List TxState) : Option (List Msg) :=
  (committedLoop g none u.cux.reverse).bind fun ms => (provisional g u states).map fun ps => ms ++ ps

/-- The rows of a destination dictionary: a version stack for every key, empty where there is no row
(`toku_ft_bn_apply_msg` starts from `emptyUle` then). -/
abbrev Rows := Bytes → Ule

/-- Apply messages to a dictionary. -/
def applyMsgs (db : Rows) : List Msg → Option Rows
  | [] => some db
  | m :: ms => (msgModifyU (db m.key) m.xids m.op).bind fun u =>
      applyMsgs (fun k => if k = m.key then u else db k) ms

/-! ### Pins -/

/-- `indexer_fill_prov_info`, src/indexer.cc:440-478: pin each live or preparing transaction once
(`toku_txn_pin_live_txn_unlocked`, ft/txn/txn.cc:690-694). -/
def pinAll : List TxState → List Nat → List Nat
  | st :: sts, n :: ns => (if throughTxn st then n + 1 else n) :: pinAll sts ns
  | _, ns => ns

/-- `release_txns`, src/indexer-undo-do.cc:228-247: unpin each of them
(`toku_txn_unpin_live_txn`, ft/txn/txn.cc:698-707, asserts that there is a pin). -/
def releaseAll : List TxState → List Nat → Option (List Nat)
  | st :: sts, n :: ns =>
    if throughTxn st then
      if n = 0 then none else (releaseAll sts ns).map ((n - 1) :: ·)
    else (releaseAll sts ns).map (n :: ·)
  | _, ns => some ns

/-- The loop over the destination dictionaries, src/indexer.cc:560-575: every call of `indexer_undo_do` ends
with `release_txns` (unless nothing is provisional). -/
def eachDb (u : Ule) (states : List TxState) : List (Gen × Rows) → List Nat → Option (List Rows × List Nat)
  | [], pins => some ([], pins)
  | (g, db) :: dbs, pins =>
    (undoDo g u states).bind fun ms =>
    (applyMsgs db ms).bind fun db' =>
    (releaseAll states pins).bind fun pins' =>
    (eachDb u states dbs pins').map fun (l, p) => (db' :: l, p)

/-- One turn of `build_index`, src/indexer.cc:531-585, on one source row: `pins` are the pins its transactions
have already. -/
def indexRow (u : Ule) (states : List TxState) (dbs : List (Gen × Rows)) (pins : List Nat) :
    Option (List Rows × List Nat) :=
  eachDb u states dbs (pinAll states pins)

end Verif.Hot
