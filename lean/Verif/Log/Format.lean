import Verif.Ser.Buf
/-!
Log records: the table of record types (ft/logger/logformat.cc) and the functions generated from it that write a record
(`generate_log_writer`) and that read one forwards and backwards (`generate_log_reader`), with the field readers of
ft/logger/logger.cc and the field writers of ft/logger/logger.h, ft/txn/txn.h, ft/serialize/block_table.h.

A file is the list of its bytes.  A call ends with a result, with the code `EOF` (-1), with another error code, or by
writing outside an array (`smash`).
-/
namespace Verif.Log
open Verif.Ser

/-- The field types of logformat.cc:136-279.  `stamp` is a `uint64_t` named `timestamp`, which the writer treats specially
(logformat.cc:497-498). -/
inductive Ty where
  | u8 | u32 | u64 | stamp | bool | filenum | blocknum | lsn | txnid | pair | xid | bytes | filenums
deriving Repr, DecidableEq

/-- `TOKU_XA_XID`, buildheader/make_tdb.cc:624-629: three `long`s and an array of 128 bytes, of which only the first
`gtrid_length + bqual_length` have a meaning; `data` is those. -/
structure Xid where
  formatID : Int
  gtrid : Int
  bqual : Int
  data : List Nat
deriving Repr, DecidableEq

/-- The value of a field.  Every integer type is its bit pattern (a `BLOCKNUM`, which is signed, is written and read as a
`uint64_t`: block_table.h:317-319, logger.cc:979-981). -/
inductive Val where
  | num (v : Nat)
  | bool (b : Bool)
  | pair (parent child : Nat)
  | xid (x : Xid)
  | bytes (bs : List Nat)
  | nums (ns : List Nat)
deriving Repr, DecidableEq

/-- When a record is written for a transaction, logformat.cc:69-74. -/
inductive Begin where
  | ignore | should | assertLogged
deriving Repr, DecidableEq

/-- `struct logtype`, logformat.cc:76-81. -/
structure LogType where
  name : String
  cmd : Nat
  fields : List Ty
  action : Begin
deriving Repr

/-- `logtypes`, logformat.cc:133-279. -/
def logtypes : List LogType :=
  [⟨"begin_checkpoint", 'x'.toNat, [.stamp, .txnid], .ignore⟩,
   ⟨"end_checkpoint", 'X'.toNat, [.lsn, .stamp, .u32, .u32], .ignore⟩,
   ⟨"fassociate", 'f'.toNat, [.filenum, .u32, .bytes, .u8], .ignore⟩,
   ⟨"xstillopen", 's'.toNat, [.pair, .pair, .u64, .filenums, .u8, .u64, .u64, .blocknum, .blocknum, .blocknum], .assertLogged⟩,
   ⟨"xstillopenprepared", 'p'.toNat, [.pair, .xid, .u64, .filenums, .u8, .u64, .u64, .blocknum, .blocknum, .blocknum], .assertLogged⟩,
   ⟨"xbegin", 'b'.toNat, [.pair, .pair], .ignore⟩,
   ⟨"xcommit", 'C'.toNat, [.pair], .assertLogged⟩,
   ⟨"xprepare", 'P'.toNat, [.pair, .xid], .assertLogged⟩,
   ⟨"xabort", 'q'.toNat, [.pair], .assertLogged⟩,
   ⟨"fcreate", 'F'.toNat, [.pair, .filenum, .bytes, .u32, .u32, .u32, .u32, .u32], .should⟩,
   ⟨"fopen", 'O'.toNat, [.bytes, .filenum, .u32], .ignore⟩,
   ⟨"fclose", 'e'.toNat, [.bytes, .filenum], .ignore⟩,
   ⟨"fdelete", 'U'.toNat, [.pair, .filenum], .should⟩,
   ⟨"frename", 'n'.toNat, [.pair, .bytes, .filenum, .bytes], .ignore⟩,
   ⟨"enq_insert", 'I'.toNat, [.filenum, .pair, .bytes, .bytes], .should⟩,
   ⟨"enq_insert_no_overwrite", 'i'.toNat, [.filenum, .pair, .bytes, .bytes], .should⟩,
   ⟨"enq_delete_any", 'E'.toNat, [.filenum, .pair, .bytes], .should⟩,
   ⟨"enq_insert_multiple", 'm'.toNat, [.filenum, .filenums, .pair, .bytes, .bytes], .should⟩,
   ⟨"enq_delete_multiple", 'M'.toNat, [.filenum, .filenums, .pair, .bytes, .bytes], .should⟩,
   ⟨"comment", 'T'.toNat, [.stamp, .bytes], .ignore⟩,
   ⟨"shutdown_up_to_19", 'Q'.toNat, [.stamp], .ignore⟩,
   ⟨"shutdown", '0'.toNat, [.stamp, .txnid], .ignore⟩,
   ⟨"load", 'l'.toNat, [.pair, .filenum, .bytes], .should⟩,
   ⟨"hot_index", 'h'.toNat, [.pair, .filenums], .should⟩,
   ⟨"enq_update", 'u'.toNat, [.filenum, .pair, .bytes, .bytes], .should⟩,
   ⟨"enq_updatebroadcast", 'B'.toNat, [.filenum, .pair, .bytes, .bool], .should⟩,
   ⟨"change_fdescriptor", 'D'.toNat, [.filenum, .pair, .bytes, .bytes, .bool], .should⟩]

/-- The `switch` on the command, logformat.cc:543-548: the fields of the record type, if there is one. -/
def fieldsOf (cmd : Nat) : Option (List Ty) := (logtypes.find? (·.cmd == cmd)).map (·.fields)

/-- A record: `struct log_entry`, logformat.cc:364-369, without the checksum and the length. -/
structure Entry where
  cmd : Nat
  lsn : Nat
  vals : List Val
deriving Repr, DecidableEq

/-! ### Writing -/

/-- `toku_logsizeof_*`, ft/logger/log-internal.h:152-217; the two assertions are those of `toku_logsizeof_XIDP`. -/
def logsizeof : Ty → Val → R Nat
  | .u8, _ => .ok 1
  | .u32, _ => .ok 4
  | .u64, _ => .ok 8
  | .stamp, _ => .ok 8
  | .bool, _ => .ok 1
  | .filenum, _ => .ok 4
  | .blocknum, _ => .ok 8
  | .lsn, _ => .ok 8
  | .txnid, _ => .ok 8
  | .pair, _ => .ok 16
  | .xid, .xid x =>
    if 0 ≤ x.gtrid ∧ x.gtrid ≤ 64 then
      if 0 ≤ x.bqual ∧ x.bqual ≤ 64 then .ok (x.gtrid.toNat + x.bqual.toNat + 4 + 1 + 1) else .abort
    else .abort
  | .filenums, .nums ns => .ok (4 + ns.length * 4)
  | .bytes, .bytes bs => .ok (4 + bs.length)
  | _, _ => .abort

def sizes : List Ty → List Val → R Nat
  | t :: ts, v :: vs => do
    let a ← logsizeof t v
    let b ← sizes ts vs
    pure (a + b)
  | _, _ => .ok 0

/-- The calls of `wbuf_nocrc_*` for one field: wbuf.h:83-86, 127-129, 168-171, 187-193, logger.h:221-248, txn.h:323-334,
block_table.h:317-319.  `now` is the time of day: a timestamp of zero is replaced, logformat.cc:497-498. -/
def writes (now : Nat) : Ty → Val → List Field
  | .u8, .num v => [.char v]
  | .u32, .num v => [.int v]
  | .filenum, .num v => [.int v]
  | .u64, .num v => [.ull v]
  | .stamp, .num v => [.ull (if v = 0 then now else v)]
  | .blocknum, .num v => [.ull v]
  | .lsn, .num v => [.ull v]
  | .txnid, .num v => [.ull v]
  | .bool, .bool b => [.bool b]
  | .pair, .pair p c => [.ull p, .ull c]
  | .xid, .xid x => [.int (x.formatID % 2 ^ 32).toNat, .char (x.gtrid % 256).toNat, .char (x.bqual % 256).toNat, .literal x.data]
  | .bytes, .bytes bs => [.bytes bs]
  | .filenums, .nums ns => .int ns.length :: ns.map .int
  | _, _ => []

def writesAll (now : Nat) : List Ty → List Val → List Field
  | t :: ts, v :: vs => writes now t v ++ writesAll now ts vs
  | _, _ => []

/-- The part of `toku_log_…` that fills the buffer, logformat.cc:476-503: the bytes added to the log buffer for a record with
the given command and sequence number.  The sum of the sizes is an `unsigned int`; the space was made before. -/
def writeRecord (now cmd : Nat) (tys : List Ty) (lsn : Nat) (vals : List Val) : R (List Nat) := do
  let s ← sizes tys vals
  let buflen := m32 (4 + 1 + 8 + s + 8)
  let w ← (W.init buflen).fields0 ([.int buflen, .char cmd, .ull lsn] ++ writesAll now tys vals)
  let w ← w.int0 (memory w.out)
  let w ← w.int0 buflen
  if w.out.length = buflen then pure w.out else .abort

/-- Writing a record of a type in the table; a record of another type cannot be written. -/
def write (now : Nat) (e : Entry) : R (List Nat) :=
  match fieldsOf e.cmd with
  | some tys => writeRecord now e.cmd tys e.lsn e.vals
  | none => .abort

/-! ### Reading -/

/-- How a read ends. -/
inductive Out (α : Type) where
  | ok (a : α)
  | eof
  | bad
  | smash
deriving Repr, DecidableEq

def Out.bind {α β : Type} (r : Out α) (f : α → Out β) : Out β :=
  match r with
  | .ok a => f a
  | .eof => .eof
  | .bad => .bad
  | .smash => .smash

instance : Monad Out where
  pure := Out.ok
  bind := Out.bind

/-- The state while a record is read: what is left of the file, the checksum, and the bytes counted so far.  (The counter
`actual_len` is a `uint32_t`; here it is exact and reduced where it is compared.) -/
structure In where
  rest : List Nat
  x : X
  len : Nat
deriving Repr, DecidableEq

/-- `toku_fread_uint8_t`, logger.cc:925-933. -/
def rd8 (i : In) : Out (Nat × In) :=
  match i.rest with
  | [] => .eof
  | b :: bs => .ok (b, ⟨bs, i.x.add [b], i.len + 1⟩)

/-- `toku_fread_uint32_t`, logger.cc:947-957. -/
def rd32 (i : In) : Out (Nat × In) := do
  let (a, i) ← rd8 i
  let (b, i) ← rd8 i
  let (c, i) ← rd8 i
  let (d, i) ← rd8 i
  pure (le [a, b, c, d], i)

/-- `toku_fread_uint64_t`, logger.cc:959-966; also `LSN`, `BLOCKNUM` and `TXNID`, 977-989. -/
def rd64 (i : In) : Out (Nat × In) := do
  let (v1, i) ← rd32 i
  let (v2, i) ← rd32 i
  pure ((v1 <<< 32) ||| v2, i)

/-- `n` bytes: the loop of `toku_fread_BYTESTRING`, logger.cc:1041-1049. -/
def rdBytes : Nat → In → Out (List Nat × In)
  | 0, i => .ok ([], i)
  | n + 1, i => do
    let (b, i) ← rd8 i
    let (bs, i) ← rdBytes n i
    pure (b :: bs, i)

/-- The loop of `toku_fread_FILENUMS`, logger.cc:1059-1066. -/
def rdNums : Nat → In → Out (List Nat × In)
  | 0, i => .ok ([], i)
  | n + 1, i => do
    let (b, i) ← rd32 i
    let (bs, i) ← rdNums n i
    pure (b :: bs, i)

/-- The loop of `toku_fread_XIDP`, logger.cc:1026-1031, into the array `data` of 128 bytes, of which `k` are filled. -/
def rdXidData : Nat → Nat → In → Out (List Nat × In)
  | _, 0, i => .ok ([], i)
  | k, n + 1, i => do
    let (b, i) ← rd8 i
    if k < 128 then
      let (bs, i) ← rdXidData (k + 1) n i
      pure (b :: bs, i)
    else .smash

/-- `toku_fread_XIDP`, logger.cc:1006-1034. -/
def rdXid (i : In) : Out (Xid × In) := do
  let (f, i) ← rd32 i
  let (g, i) ← rd8 i
  let (b, i) ← rd8 i
  let (d, i) ← rdXidData 0 (g + b) i
  pure (⟨f, g, b, d⟩, i)

/-- `toku_fread_…` for a field type, logger.cc:925-1068. -/
def rdVal : Ty → In → Out (Val × In)
  | .u8, i => do let (v, i) ← rd8 i; pure (.num v, i)
  | .u32, i => do let (v, i) ← rd32 i; pure (.num v, i)
  | .filenum, i => do let (v, i) ← rd32 i; pure (.num v, i)
  | .u64, i => do let (v, i) ← rd64 i; pure (.num v, i)
  | .stamp, i => do let (v, i) ← rd64 i; pure (.num v, i)
  | .blocknum, i => do let (v, i) ← rd64 i; pure (.num v, i)
  | .lsn, i => do let (v, i) ← rd64 i; pure (.num v, i)
  | .txnid, i => do let (v, i) ← rd64 i; pure (.num v, i)
  | .bool, i => do let (v, i) ← rd8 i; pure (.bool (v != 0), i)
  | .pair, i => do
    let (p, i) ← rd64 i
    let (c, i) ← rd64 i
    pure (.pair p c, i)
  | .xid, i => do let (x, i) ← rdXid i; pure (.xid x, i)
  | .bytes, i => do
    let (n, i) ← rd32 i
    let (bs, i) ← rdBytes n i
    pure (.bytes bs, i)
  | .filenums, i => do
    let (n, i) ← rd32 i
    let (ns, i) ← rdNums n i
    pure (.nums ns, i)

def rdVals : List Ty → In → Out (List Val × In)
  | [], i => .ok ([], i)
  | t :: ts, i => do
    let (v, i) ← rdVal t i
    let (vs, i) ← rdVals ts i
    pure (v :: vs, i)

/-- `toku_log_fread_…`, logformat.cc:511-525: the fields and the end of a record whose length `len1` and command were read. -/
def rdRecord (cmd : Nat) (tys : List Ty) (len1 : Nat) (i : In) : Out (Entry × List Nat) := do
  let (lsn, i) ← rd64 i
  let (vs, i) ← rdVals tys i
  let (crc, j) ← rd32 i
  let (len2, j) ← rd32 j
  if crc ≠ i.x.finish ∨ len2 ≠ m32 (i.len + 8) ∨ len1 ≠ len2 then .bad else pure (⟨cmd, lsn, vs⟩, j.rest)

/-- `toku_log_fread`, logformat.cc:527-552: the record at the beginning of the given bytes, and the bytes after it. -/
def fread (f : List Nat) : Out (Entry × List Nat) := do
  let (len1, i) ← rd32 ⟨f, X.init, 0⟩
  let (cmd, i) ← rd8 i
  match fieldsOf cmd with
  | some tys => rdRecord cmd tys len1 i
  | none => .bad

/-- How `toku_log_fread_backward` ends: a record and the position before it, nothing to read (-1), an error (> 0), or a
write outside an array. -/
inductive Back where
  | ok (e : Entry) (pos : Nat)
  | top
  | err
  | smash
deriving Repr, DecidableEq

/-- `fseek(infile, -(int)len, SEEK_CUR)` at position `pos`, logformat.cc:566, 572; `none` if the new position would be
negative.  A length of 2^31 or more is a negative `int`, so that the seek is forward. -/
def seekBack (pos len : Nat) : Option Nat :=
  if len < 2 ^ 31 then (if len ≤ pos then some (pos - len) else none) else some (pos + (2 ^ 32 - len))

/-- `toku_log_fread_backward`, logformat.cc:555-575, with the file at position `pos`. -/
def freadBackward (f : List Nat) (pos : Nat) : Back :=
  if pos ≤ 12 then .top
  else
    match rd32 ⟨f.drop (pos - 4), X.init, 0⟩ with
    | .ok (len, _) =>
      match seekBack pos len with
      | none => .err
      | some start =>
        match fread (f.drop start) with
        | .ok (e, rest) =>
          if f.length - rest.length ≠ pos then .err
          else match seekBack pos len with
            | none => .err
            | some p => .ok e p
        | .smash => .smash
        | _ => .err
    | _ => .err

end Verif.Log
