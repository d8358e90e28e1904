import Verif.Log.Format
import Verif.Node.Disk
/-!
Rollback nodes on disk: the records a transaction needs to be undone, written by checkpoints and evictions and read back.
ft/serialize/ft_node-serialize.cc:2750-3210, ft/serialize/sub_block.cc, the functions generated by `generate_rollbacks` of
ft/logger/logformat.cc:641-772, and ft/logger/log_upgrade.cc:227-294.  Line numbers without a file are those of ft_node-serialize.cc.

A call ends with a result, by stopping the process, or by touching memory outside its buffers; a read can also report a bad format
(`none`).  The compression libraries are parameters.  Memory arenas are not modelled: the number that is stored to size the arena of
the node that is read is any number, and reading does not use it.
-/
namespace Verif.Undo
open Verif.Ser Verif.Log Verif.Node

/-- `rollbacks`, ft/logger/logformat.cc:85-131: command and fields. -/
def rollbacks : List (Nat × List Ty) :=
  [('U'.toNat, [.filenum]),
   ('F'.toNat, [.filenum, .bytes]),
   ('n'.toNat, [.bytes, .bytes]),
   ('i'.toNat, [.filenum, .bytes]),
   ('d'.toNat, [.filenum, .bytes]),
   ('r'.toNat, [.pair, .u64, .blocknum, .blocknum]),
   ('l'.toNat, [.filenum, .bytes]),
   ('h'.toNat, [.filenums]),
   ('R'.toNat, [.filenum, .filenum]),
   ('u'.toNat, [.filenum, .bytes]),
   ('B'.toNat, [.filenum, .bool]),
   ('D'.toNat, [.filenum, .bytes])]

/-- The `switch` on the command, logformat.cc:723-732, 745-755, 761-771. -/
def undoFields (cmd : Nat) : Option (List Ty) := (rollbacks.find? (·.1 == cmd)).map (·.2)

/-- `struct roll_entry`, logformat.cc:372-378, without its link. -/
structure Rec where
  cmd : Nat
  vals : List Val
deriving Repr, DecidableEq

/-- `struct rollback_log_node`, ft/txn/rollback.h:98-118.  `newest` is the list of records, newest first. -/
structure RNode where
  version : Nat
  original : Nat
  parent : Nat
  child : Nat
  seq : Nat
  blocknum : Nat
  prev : Nat
  bytes : Nat
  newest : List Rec
deriving Repr, DecidableEq

/-- `FT_LAYOUT_VERSION`, ft/serialize/ft_layout_version.h:72-73. -/
def current : Nat := 29

/-- `rollback_empty_log_init`, ft/txn/rollback.cc:111-127. -/
def RNode.unused (blocknum : Nat) : RNode := ⟨current, current, 0, 0, 0, blocknum, 0, 0, []⟩

/-- `toku_logger_rollback_fsize`, logformat.cc:733-755: the sum is a `uint32_t`. -/
def Rec.fsize (r : Rec) : R Nat :=
  match undoFields r.cmd with
  | none => .abort
  | some tys => do
    let s ← sizes tys r.vals
    pure (m32 (1 + 4 + s))

/-- The part of `toku_logger_save_rollback_*` that changes the node, logformat.cc:679-697. -/
def RNode.save (n : RNode) (r : Rec) : R RNode := do
  let s ← r.fsize
  pure { n with newest := r :: n.newest, bytes := n.bytes + s }

/-! ### Writing -/

/-- `toku_logger_rollback_wbuf_nocrc_write`, logformat.cc:705-732. -/
def writeRec (r : Rec) (w : W) : R W :=
  match undoFields r.cmd with
  | none => .abort
  | some tys => do
    let s ← sizes tys r.vals
    w.fields0 ([.int (m32 (1 + 4 + s)), .char r.cmd] ++ writesAll 0 tys r.vals)

/-- The loop at 2785-2787. -/
def writeRecs : List Rec → W → R W
  | [], w => .ok w
  | r :: rs, w => do
    let w ← writeRec r w
    writeRecs rs w

/-- "tokuroll" -/
def magicRoll : List Nat := [116, 111, 107, 117, 114, 111, 108, 108]

/-- `serialize_rollback_log_size`, 2750-2761. -/
def nodeSize (n : RNode) : Nat := 20 + 16 + 8 + 8 + 8 + 8 + 8 + n.bytes

/-- `serialize_rollback_log_node_to_buf`, 2763-2793, by a program of layout version `prog`. -/
def toBuf (prog build arena : Nat) (n : RNode) : R (List Nat) :=
  if n.version = prog then do
    let w ← (W.init (nodeSize n)).fields0 [.literal magicRoll, .int n.version, .int n.original, .int build, .ull n.parent, .ull n.child, .ull n.seq, .ull n.blocknum,
      .ull n.prev, .ull n.bytes, .ull arena]
    let before := w.out.length
    let w ← writeRecs n.newest w
    if before + n.bytes = w.out.length then
      if w.out.length = nodeSize n then pure w.out else .abort
    else .abort
  else .abort

/-- The loop that rounds the size of a piece up until the pieces hold everything, ft/serialize/sub_block.cc:129-130.  The product is an `int`.
The loop is left before the number of steps allowed here is used up. -/
def roundUp (n total : Nat) : Nat → Nat → R Nat
  | 0, _ => .abort
  | k + 1, s => if 2 ^ 31 ≤ s * n then .outside else if s * n < total then roundUp n total k (s + 32) else .ok s

/-- `choose_sub_block_size`, ft/serialize/sub_block.cc:112-137, and the assertions of its caller, 2857-2859: number and size of the pieces.
The size is passed as an `int`: from 2^31 on it is negative (or, from 2^32 on, another number; here it stops the process too). -/
def choose (total limit : Nat) : R (Nat × Nat) :=
  if 2 ^ 31 ≤ total then .abort
  else if total / (512 * 1024) ≤ 1 then if 0 < total then .ok (1, total) else .abort
  else do
    let n := if limit < total / (512 * 1024) then limit else total / (512 * 1024)
    let s ← roundUp n total total ((total / n + 31) / 32 * 32)
    if 0 < n ∧ n ≤ 8 ∧ 0 < s then pure (n, s) else .abort

/-- `set_all_sub_block_sizes`, ft/serialize/sub_block.cc:152-162; a piece starts at 0, `sub_block_init`, 68-77. -/
def pieceSizes (total n s : Nat) : List Nat := List.replicate (n - 1) s ++ [if n - 1 = 0 ∨ s * (n - 1) < total then total - s * (n - 1) else 0]

/-- `compress_all_sub_blocks`, ft/serialize/sub_block.cc:236-290: each piece compressed, with its two sizes and its checksum.  The threads share the
work; each piece has a buffer of its own. -/
def compressAll (L : Lib) (m : Method) : List Nat → List Nat → R (List (List Nat × Nat))
  | [], _ => .ok []
  | k :: ks, data =>
    if k ≤ data.length then do
      let body ← compress L m (compressBound L m k) (data.take k)
      let rest ← compressAll L m ks (data.drop k)
      pure ((body, k) :: rest)
    else .outside

/-- The header of the pieces, 2824-2831. -/
def subHeader (subs : List (List Nat × Nat)) : List Nat :=
  store32 subs.length ++ subs.flatMap fun s => store32 s.1.length ++ store32 s.2 ++ store32 (memory s.1)

/-- `serialize_uncompressed_block_to_memory`, 2795-2845, of the bytes `buf`. -/
def pack (L : Lib) (m : Method) (buf : List Nat) (ks : List Nat) : R (List Nat) := do
  let subs ← compressAll L m ks (buf.drop 20)
  let head := buf.take 20 ++ subHeader subs
  let all := head ++ store32 (memory head) ++ subs.flatMap (·.1)
  pure (all ++ List.replicate (roundup512 all.length - all.length) 0)

/-- `toku_serialize_rollback_log_to_memory_uncompressed` and the rest of `toku_serialize_rollback_log_to`, 2847-2916: the bytes that are
written.  A checkpoint does the first part when it begins (`toku_rollback_clone_callback`) and the second later. -/
def toDisk (L : Lib) (m : Method) (prog build arena : Nat) (n : RNode) : R (List Nat) := do
  let (k, s) ← choose (nodeSize n - 20) 8
  let buf ← toBuf prog build arena n
  pack L m buf (pieceSizes (nodeSize n - 20) k s)

/-! ### Reading -/

/-- The loop of `rbuf_ma_FILENUMS`, ft/logger/logger.h:267-274. -/
def rdNums : Nat → Rd → R (List Nat × Rd)
  | 0, r => .ok ([], r)
  | n + 1, r => do
    let (a, r) ← r.int
    let (as, r) ← rdNums n r
    pure (a :: as, r)

/-- `rbuf_ma_*`, ft/serialize/rbuf.h:71-156, ft/logger/logger.h:255-274, ft/txn/txn.h:345-357, ft/serialize/block_table.h:330-340, for the types that
occur in rollback records. -/
def rdVal : Ty → Rd → R (Val × Rd)
  | .filenum, r => do let (v, r) ← r.int; pure (.num v, r)
  | .u64, r => do let (v, r) ← r.ull; pure (.num v, r)
  | .blocknum, r => do let (v, r) ← r.ull; pure (.num v, r)
  | .bool, r => do let (v, r) ← r.bool; pure (.bool v, r)
  | .pair, r => do
    let (p, r) ← r.ull
    let (c, r) ← r.ull
    pure (.pair p c, r)
  | .bytes, r => do let (v, r) ← r.bytes; pure (.bytes v, r)
  | .filenums, r => do
    let (n, r) ← r.int
    let (v, r) ← rdNums n r
    pure (.nums v, r)
  | _, _ => .abort

def rdVals : List Ty → Rd → R (List Val × Rd)
  | [], r => .ok ([], r)
  | t :: ts, r => do
    let (v, r) ← rdVal t r
    let (vs, r) ← rdVals ts r
    pure (v :: vs, r)

/-- `toku_parse_rollback`, logformat.cc:757-771. -/
def parse : List Nat → R (Option Rec)
  | [] => .abort
  | cmd :: rest =>
    match undoFields cmd with
    | none => .ok none
    | some tys => do
      let (vs, _) ← rdVals tys ⟨cmd :: rest, 1⟩
      pure (some ⟨cmd, vs⟩)

/-- The loop at 2959-2980.  Every round reads four bytes at least, so that the rounds allowed here are enough. -/
def readRecs : Nat → Rd → R (Option (List Rec))
  | 0, _ => .abort
  | k + 1, r =>
    if r.ndone < r.buf.length then do
      let (fsize, r) ← r.int
      let (body, r) ← r.literal (m32 (fsize + 2 ^ 32 - 4))
      match ← parse body with
      | none => pure none
      | some e =>
        match ← readRecs k r with
        | none => pure none
        | some es => pure (some (e :: es))
    else .ok (some [])

/-- The versions whose rollback nodes can be read, 2933-2934, 2994. -/
def readable (version : Nat) : Bool := (25 ≤ version && version ≤ 27) || version == current

/-- `deserialize_rollback_log_from_rbuf`, 2918-2986. -/
def fromBuf (blocknum : Nat) (buf : List Nat) : R (Option RNode) := do
  let (magic, r) ← Rd.literal ⟨buf, 0⟩ 8
  if magic = magicRoll then do
    let (version, r) ← r.int
    if readable version then do
      let (original, r) ← r.int
      let (_build, r) ← r.int
      let (parent, r) ← r.ull
      let (child, r) ← r.ull
      let (seq, r) ← r.ull
      let (bn, r) ← r.ull
      if bn = blocknum then do
        let (prev, r) ← r.ull
        let (bytes, r) ← r.ull
        let (_arena, r) ← r.ull
        if 4 < buf.length then
          match ← readRecs (buf.length + 1) r with
          | none => pure none
          | some es => pure (some ⟨version, original, parent, child, seq, bn, prev, bytes, es⟩)
        else .abort
      else .ok none
    else .abort
  else .abort

/-- The stored header of a piece, 3025-3032: compressed size, size and checksum. -/
def readSubs : Nat → List Nat → List (Nat × Nat × Nat)
  | 0, _ => []
  | n + 1, bs => (le (bs.take 4), le ((bs.drop 4).take 4), le ((bs.drop 8).take 4)) :: readSubs n (bs.drop 12)

/-- `decompress_sub_block`, ft/serialize/sub_block.cc:312-327; `none` if the checksum is wrong. -/
def expandOne (L : Lib) (u x : Nat) (body : List Nat) : R (Option (List Nat)) :=
  if memory body = x then do
    let d ← decompress L u body
    pure (some d)
  else .ok none

/-- `decompress_all_sub_blocks`, ft/serialize/sub_block.cc:342-400. -/
def expandAll (L : Lib) : List (Nat × Nat × Nat) → List Nat → R (Option (List Nat))
  | [], _ => .ok (some [])
  | (c, u, x) :: subs, bs =>
    if c ≤ bs.length then do
      let a ← expandOne L u x (bs.take c)
      let rest ← expandAll L subs (bs.drop c)
      match a, rest with
      | some a, some rest => pure (some (a ++ rest))
      | _, _ => pure none
    else .outside

/-- The sizes that are accepted, 3041-3054. -/
def sizesOk (subs : List (Nat × Nat × Nat)) : Bool := subs.all fun s => 0 < s.1 && s.1 ≤ 2 ^ 30 && 0 < s.2.1 && s.2.1 ≤ 2 ^ 30

/-- `decompress_from_raw_block_into_rbuf`, 3002-3089.  A wrong checksum of the header stops the process, 3145-3149. -/
def unpack (L : Lib) (raw : List Nat) : R (Option (List Nat)) :=
  let n := le ((raw.drop 20).take 4)
  if n ≤ 8 then
    if 24 + n * 12 ≤ raw.length then
      if 24 + n * 12 + 4 ≤ raw.length then
        if memory (raw.take (24 + n * 12)) = le ((raw.drop (24 + n * 12)).take 4) then
          let subs := readSubs n (raw.drop 24)
          if sizesOk subs then do
            match ← expandAll L subs (raw.drop (24 + n * 12 + 4)) with
            | none => pure none
            | some data => pure (some (raw.take 20 ++ data))
          else .ok none
        else .abort
      else .outside
    else .abort
  else .abort

/-- The versions for which `decompress_from_raw_block_into_rbuf_versioned`, 3091-3102, does not stop the process. -/
def unpackable (version : Nat) : Bool := version == 13 || version == 14 || (25 ≤ version && version ≤ 27) || version == current

/-- `read_and_decompress_block_from_fd_into_rbuf`, 3104-3166, and the rest of `toku_deserialize_rollback_log_from`, 3195-3203, from the bytes of the block on. -/
def decodeBlock (L : Lib) (blocknum : Nat) (raw : List Nat) : R (Option RNode) :=
  if raw.length < 24 then .outside
  else if raw.take 8 ≠ magicLeaf ∧ raw.take 8 ≠ magicNode ∧ raw.take 8 ≠ magicRoll then .ok none
  else
    let version := le ((raw.drop 8).take 4)
    if version < 13 ∨ current < version then .ok none
    else if unpackable version then do
      match ← unpack L raw with
      | none => pure none
      | some buf =>
        if buf.take 8 = magicRoll then
          if readable version then fromBuf blocknum buf else .abort
        else .ok none
    else .abort

/-- `toku_deserialize_rollback_log_from`, 3168-3192: the block of the given size at `off`. -/
def fromDisk (L : Lib) (blocknum : Nat) (file : List Nat) (off size : Nat) : R (Option RNode) :=
  if size = 0 then .ok (some (RNode.unused blocknum))
  else do
    let raw ← readBlock file off size
    decodeBlock L blocknum raw

/-! ### Nodes of an older program -/

/-- What `toku_maybe_upgrade_log` finds, ft/logger/log_upgrade.cc:250-280: nothing to do, recovery from the logs as they are, new logs after a clean
shutdown, or an error. -/
inductive Start where
  | asIs | recover | fresh | tooNew | tooOld | notClean
deriving Repr, DecidableEq

/-- `toku_maybe_upgrade_log`, ft/logger/log_upgrade.cc:250-280, with the minimum of ft/logger/logger.h:59 (13): whether there are logs, their version, and whether
they end with a shutdown. -/
def maybeUpgrade (found : Bool) (version : Nat) (clean : Bool) : Start :=
  if !found then .asIs
  else if current < version then .tooNew
  else if version < 13 then .tooOld
  else if version = current then .asIs
  else if clean then .fresh
  else if 25 ≤ version ∧ version ≤ 29 then .recover
  else .notClean

end Verif.Undo
