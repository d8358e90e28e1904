import Verif.Codec.Bytes
import Verif.Txn.Model

/-!
The packed leaf entry, byte for byte: ft/ule.cc:810-1309 (pack, unpack, sizes) and the accessors that work
on the packed form directly (1315-1548, 2101-2439).
-/
namespace Verif.Ule
open Verif.Codec (le ofLe P ret fail andThen num skip rep each)

/-! ### Packing -/

/-- `INSERT_LENGTH`, ft/ule.cc:111. -/
def insertLength (n : Nat) : Nat := 2 ^ 31 ||| n
/-- `DELETE_LENGTH`, ft/ule.cc:112. -/
def deleteLength (_ : Nat) : Nat := 0
/-- `GET_LENGTH`, ft/ule.cc:113. -/
def getLength (n : Nat) : Nat := n &&& (2 ^ 31 - 1)
/-- `IS_INSERT`, ft/ule.cc:114. -/
def isInsertLen (n : Nat) : Bool := n &&& 2 ^ 31 ≠ 0

/-- `vallen` of a record (0 unless it is an insert, ft/ule.cc:1905-1934). -/
def XrVal.vallen : XrVal → Nat
  | .insert v => v.length
  | _ => 0

/-- `uxr_pack_txnid`, ft/ule.cc:906-909. -/
def packTxnid (x : Txnid) : Bytes := le 8 x

/-- `uxr_pack_type_and_length`, ft/ule.cc:911-919 (type codes: ft/ule-internal.h:57-59). -/
def packTypeLen : XrVal → Bytes
  | .insert v => 1 :: le 4 v.length
  | .delete => [2]
  | .placeholder => [3]

/-- `uxr_pack_length_and_bit`, ft/ule.cc:921-930. -/
def packLenBit (v : XrVal) : Bytes :=
  match v with
  | .insert b => le 4 (insertLength b.length)
  | v => le 4 (deleteLength v.vallen)

/-- `uxr_pack_data`, ft/ule.cc:932-938. -/
def packData : XrVal → Bytes
  | .insert v => v
  | _ => []

/-- The middle part of the provisional tail: ft/ule.cc:1110-1117, one record. -/
def packMiddle (r : Uxr) : Bytes := packTxnid r.xid ++ packTypeLen r.val ++ packData r.val

/-- The tail of an MVCC entry with more than one provisional record, ft/ule.cc:1100-1124. -/
def packTail (pux : List Uxr) : Bytes :=
  match pux with
  | o :: m :: rest =>
    packTypeLen o.val ++ packData o.val ++
    (m :: rest).dropLast.flatMap packMiddle ++
    packTxnid ((m :: rest).getLast?.getD m).xid
  | _ => []

/-- `le_pack`, ft/ule.cc:995-1167, into a fresh buffer.  Outer `none` = an invariant fails; inner `none` =
there is no leaf entry because no record is an insert. -/
def pack (u : Ule) : Option (Option Bytes) :=
  match u.cux.getLast? with
  | none => none
  | some bottom =>
    if bottom.xid ≠ txnidNone then none
    else if ¬ (u.cux.any Uxr.isInsert ∨ u.pux.any Uxr.isInsert) then some none
    else match u.cux, u.pux with
      | [c], [] => some (some (0 :: le 4 c.val.vallen ++ packData c.val))
      | cux, pux =>
        if pux.length < maxTransactionRecords then
          let inn := (pux.getLast?.map (·.val))
          some (some (
            1 :: le 4 cux.length ++ le 1 pux.length ++
            (pux.head?.elim [] fun o => packTxnid o.xid) ++
            cux.dropLast.flatMap (fun r => packTxnid r.xid) ++
            (inn.elim [] packLenBit) ++ cux.flatMap (fun r => packLenBit r.val) ++
            (inn.elim [] packData) ++ cux.flatMap (fun r => packData r.val) ++
            packTail pux))
        else none

/-- `le_memsize_from_ule`, ft/ule.cc:1175-1216 (the sum of the insert lengths written as a sum over the
records; `none` = the invariant on a clean entry fails). -/
def memsizeFromUle (u : Ule) : Option Nat :=
  match u.cux, u.pux with
  | [], _ => none
  | [c], [] => if c.isInsert then some (1 + 4 + c.val.vallen) else none
  | cux, pux =>
    let base := 1 + 4 + 1 + 4 * cux.length + 8 * (cux.length + pux.length - 1) +
      (cux.map fun r => if r.isInsert then r.val.vallen else 0).sum
    match pux.getLast? with
    | none => some base
    | some i => some (base + (if i.isInsert then i.val.vallen else 0) + 4 + 1 * (pux.length - 1) +
        (pux.dropLast.map fun r => if r.isInsert then 4 + r.val.vallen else 0).sum)

/-! ### Unpacking -/

/-- `uxr_unpack_txnid`, ft/ule.cc:940-943. -/
def unpackTxnid : P Txnid := num 8

/-- A record's type and length, before its data is read. -/
inductive TL where
  | insert (len : Nat)
  | delete
  | placeholder
  deriving DecidableEq, Repr

/-- The number of data bytes a length word announces (`vallen`; 0 unless an insert, ft/ule.cc:955-965). -/
def tlLen : TL → Nat
  | .insert n => n
  | _ => 0

/-- `uxr_unpack_type_and_length`, ft/ule.cc:945-953 (an unknown type byte is a failure here). -/
def unpackTypeLen : P TL := andThen (num 1) fun t =>
  if t = 1 then andThen (num 4) fun n => ret (.insert n)
  else if t = 2 then ret .delete
  else if t = 3 then ret .placeholder
  else fail

/-- `uxr_unpack_length_and_bit`, ft/ule.cc:955-965. -/
def unpackLenBit : P TL := andThen (num 4) fun n =>
  ret (if isInsertLen n then .insert (getLength n) else .delete)

/-- `uxr_unpack_data`, ft/ule.cc:967-973. -/
def unpackData : TL → P XrVal
  | .insert n => andThen (Codec.take n) fun b => ret (.insert b)
  | .delete => ret .delete
  | .placeholder => ret .placeholder

/-- ft/ule.cc:884-889, one record. -/
def unpackMiddle : P Uxr :=
  andThen unpackTxnid fun x => andThen unpackTypeLen fun t => andThen (unpackData t) fun v => ret ⟨x, v⟩

/-- The provisional tail, ft/ule.cc:875-895; `x` is the outermost id and `i` the innermost value, already
read. -/
def unpackTail (np : Nat) (x : Txnid) (i : XrVal) : P (List Uxr) :=
  if np = 0 then ret []
  else if np = 1 then ret [⟨x, i⟩]
  else andThen unpackTypeLen fun t => andThen (unpackData t) fun v =>
    andThen (rep unpackMiddle (np - 2)) fun ms => andThen unpackTxnid fun ix =>
    ret (⟨x, v⟩ :: ms ++ [⟨ix, i⟩])

/-- `if (num_puxrs != 0)` around a parser. -/
def whenProv {α} (np : Nat) (p : P α) (d : α) : P α := if np = 0 then ret d else p

/-- `le_unpack`, ft/ule.cc:810-904. -/
def unpack : P Ule := andThen (num 1) fun t =>
  if t = 0 then
    andThen (num 4) fun n => andThen (Codec.take n) fun v => ret ⟨[⟨txnidNone, .insert v⟩], []⟩
  else if t = 1 then
    andThen (num 4) fun nc => if nc = 0 then fail else
    andThen (num 1) fun np =>
    andThen (whenProv np unpackTxnid 0) fun ox =>
    andThen (rep unpackTxnid (nc - 1)) fun xs =>
    andThen (whenProv np unpackLenBit .delete) fun il =>
    andThen (rep unpackLenBit nc) fun ls =>
    andThen (whenProv np (unpackData il) .delete) fun iv =>
    andThen (each unpackData ls) fun vs =>
    andThen (unpackTail np ox iv) fun pux =>
    ret ⟨List.zipWith Uxr.mk (xs ++ [txnidNone]) vs, pux⟩
  else fail

/-! ### Accessors on the packed form -/

/-- `leafentry_rest_memsize`, ft/ule.cc:1219-1270, as the pointer advance. -/
def restMemsize (np nc : Nat) : P Unit :=
  andThen (if np ≠ 0 then skip 8 else ret ()) fun _ =>
  andThen (skip ((nc - 1) * 8)) fun _ =>
  andThen (whenProv np unpackLenBit .delete) fun il =>
  andThen (rep unpackLenBit nc) fun ls =>
  andThen (skip (tlLen il + (ls.map tlLen).sum)) fun _ =>
  if np > 1 then
    andThen unpackTypeLen fun t => andThen (unpackData t) fun _ =>
    andThen (rep unpackMiddle (np - 2)) fun _ => andThen unpackTxnid fun _ => ret ()
  else ret ()

/-- `leafentry_memsize`, ft/ule.cc:1272-1309 (number of bytes from `le` to the final pointer). -/
def memsize (bs : Bytes) : Option Nat :=
  (andThen (num 1) (fun t =>
    if t = 0 then andThen (num 4) fun n => ret (some (1 + 4 + n))
    else if t = 1 then
      andThen (num 4) fun nc => if nc = 0 then fail else
      andThen (num 1) fun np => andThen (restMemsize np nc) fun _ => ret none
    else fail) bs).map fun r => r.1.getD (bs.length - r.2.length)

/-- `le_is_clean`, ft/ule.cc:1315-1329. -/
def leIsClean (bs : Bytes) : Option Bool :=
  (num 1 bs).bind fun r => if r.1 = 0 then some true else if r.1 = 1 then some false else none

/-- Reading the header of an MVCC entry and skipping its ids (the common prefix of 1340-1359, 1405-1422,
1478-1495). -/
def mvccLens : P (Nat × Nat) :=
  andThen (num 4) fun nc => if nc = 0 then fail else
  andThen (num 1) fun np =>
  andThen (if np ≠ 0 then skip 8 else ret ()) fun _ =>
  andThen (skip ((nc - 1) * 8)) fun _ => ret (nc, np)

/-- `le_latest_is_del`, ft/ule.cc:1331-1371. -/
def leLatestIsDel (bs : Bytes) : Option Bool :=
  (andThen (num 1) (fun t =>
    if t = 0 then ret false
    else if t = 1 then andThen mvccLens fun _ => andThen unpackLenBit fun l => ret (l = .delete)
    else fail) bs).map (·.1)

/-- `le_latest_val_and_len`, ft/ule.cc:1393-1452: the bytes pointed to, or `none` for a NULL pointer with
length 0. -/
def leLatestVal (bs : Bytes) : Option (Option Bytes) :=
  (andThen (num 1) (fun t =>
    if t = 0 then andThen (num 4) fun n => andThen (Codec.take n) fun v => ret (some v)
    else if t = 1 then andThen mvccLens fun (nc, np) => andThen unpackLenBit fun l =>
      match l with
      | .insert n =>
        andThen (skip ((nc - 1 + (if np ≠ 0 then 1 else 0)) * 4)) fun _ =>
        andThen (Codec.take n) fun v => ret (some v)
      | _ => ret none
    else fail) bs).map (·.1)

/-- `le_latest_vallen`, ft/ule.cc:1469-1517. -/
def leLatestVallen (bs : Bytes) : Option Nat :=
  (andThen (num 1) (fun t =>
    if t = 0 then num 4
    else if t = 1 then andThen mvccLens fun _ => andThen unpackLenBit fun l =>
ret (tlLen l)
    else fail) bs).map (·.1)

/-- `le_outermost_uncommitted_xid`, ft/ule.cc:1519-1548. -/
def leOutermostXid (bs : Bytes) : Option Txnid :=
  (andThen (num 1) (fun t =>
    if t = 0 then ret txnidNone
    else if t = 1 then andThen (num 4) fun _ => andThen (num 1) fun np => whenProv np unpackTxnid txnidNone
    else ret txnidNone) bs).map (·.1)

/-- `le_has_xids`, ft/ule.cc:1382-1391 (`none` = an invariant fails). -/
def leHasXids (bs : Bytes) (xs : Xids) : Option Bool :=
  match xs with
  | [] => none
  | x :: _ => if x = txnidNone then none else (leOutermostXid bs).map fun o => o = x

/-- `toku_le_worth_running_garbage_collection`, ft/ule.cc:579-603, with `o` the implicit-promotion bound. -/
def leWorthGc (bs : Bytes) (o : Txnid) : Option Bool :=
  (andThen (num 1) (fun t =>
    if t ≠ 1 then ret false
    else andThen (num 4) fun nc => andThen (num 1) fun np =>
      if nc > 1 then ret true
      else if np = 0 then ret false
      else andThen unpackTxnid fun x => ret (x < o)) bs).map (·.1)

/-- `le_iterate_get_accepted_index`, ft/ule.cc:2101-2125: the callback is asked about all ids but the last
(which has none); `xs` are the `num_xids - 1` ids.  The callback is told whether the record is
provisional. -/
def acceptedIndex (f : Bool → Txnid → Bool) (topProv : Bool) : List Txnid → Nat
  | [] => 0
  | x :: xs => if f topProv x then 0 else acceptedIndex f false xs + 1

/-- `le_iterate_val`, ft/ule.cc:2295-2414. -/
def leIterateVal (f : Bool → Txnid → Bool) (bs : Bytes) : Option (Option Bytes) :=
  (andThen (num 1) (fun t =>
    if t = 0 then andThen (num 4) fun n => andThen (Codec.take n) fun v => ret (some v)
    else if t = 1 then
      andThen (num 4) fun nc => andThen (num 1) fun np =>
      let n := nc + (if np ≠ 0 then 1 else 0)
      andThen (rep unpackTxnid (n - 1)) fun xs =>
      let index := acceptedIndex f (np ≠ 0) xs
      andThen (rep unpackLenBit n) fun ls =>
      let offset := ((ls.take index).map tlLen).sum
      match ls[index]? with
      | some (.insert k) => andThen (skip offset) fun _ => andThen (Codec.take k) fun v => ret (some v)
      | some _ => ret none
      | none => fail
    else fail) bs).map (·.1)

/-- `le_iterate_is_del`, ft/ule.cc:2157-2238. -/
def leIterateIsDel (f : Bool → Txnid → Bool) (bs : Bytes) : Option Bool :=
  (andThen (num 1) (fun t =>
    if t = 0 then ret false
    else if t = 1 then
      andThen (num 4) fun nc => andThen (num 1) fun np =>
      let n := nc + (if np ≠ 0 then 1 else 0)
      andThen (rep unpackTxnid (n - 1)) fun xs =>
      let index := acceptedIndex f (np ≠ 0) xs
      andThen (skip (4 * index)) fun _ => andThen unpackLenBit fun l => ret (l = .delete)
    else fail) bs).map (·.1)

/-! ### Specification of the accessors -/

/-- What a read with callback `f` returns, on the unpacked form. -/
def readWith (f : Bool → Txnid → Bool) (u : Ule) : Option Bytes :=
  match u.pux with
  | o :: _ => if f true o.xid then latest u
              else (Txn.readCommitted (f false) u.cux).bind fun r => r.val.read
  | [] => (Txn.readCommitted (f false) u.cux).bind fun r => r.val.read

/-- Stacks the format can hold.  Machine limits: 2^64 ids, 2^32 committed versions. -/
structure Packable (u : Ule) : Prop where
  bottom : ∃ b, u.cux.getLast? = some b ∧ b.xid = 0
  cval : ∀ r ∈ u.cux, r.val ≠ .placeholder
  inn : ∀ r, u.pux.getLast? = some r → r.val ≠ .placeholder
  plen : u.pux.length ≤ 253
  clen : u.cux.length < 2 ^ 32
  xid : ∀ r ∈ u.cux ++ u.pux, r.xid < 2 ^ 64
  vlen : ∀ r ∈ u.cux ++ u.pux, r.val.vallen < 2 ^ 31

end Verif.Ule
