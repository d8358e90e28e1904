import Verif.Ser.Buf
/-!
Message buffers in memory and on disk: ft/msg_buffer.cc, ft/msg.cc, the transaction lists of ft/txn/xids.cc, the three offset
trees beside a buffer (ft/node.cc) and their form on disk (ft/serialize/ft_node-serialize.cc).  Bytes are numbers below 256.
-/
namespace Verif.Ser

/-- `ft_msg`, ft/msg.h:144-191, with its type as the number of `enum ft_msg_type` (msg.h:63-80). -/
structure Msg where
  typ : Nat
  msn : Nat
  xids : List Nat
  key : List Nat
  val : List Nat
deriving Repr, DecidableEq

/-- `message_buffer::msg_memsize_in_buffer`, ft/msg_buffer.cc:287-292: `sizeof(buffer_entry)` is 19 (packed, msg_buffer.h:115-122,
with the one-byte header of `XIDS_S`), `toku_xids_get_size` is 1 + 8 per transaction (xids.cc:205-211). -/
def Msg.memsize (m : Msg) : Nat := 19 + m.key.length + m.val.length + (1 + 8 * m.xids.length) - 1

/-- `message_buffer`, ft/msg_buffer.h:45-132.  `mem` is the first `_memory_used` bytes; `size` is `_memory_size` (0 while `_memory`
is null). -/
structure MB where
  mem : List Nat
  n : Nat
  size : Nat
deriving Repr, DecidableEq

/-- `message_buffer::create`, ft/msg_buffer.cc:41-47. -/
def MB.create : MB := ⟨[], 0, 0⟩

/-- The loop of `next_power_of_two`, ft/msg_buffer.cc:160-167.  Doubling 2^30 makes a negative `int`, which the assertion stops. -/
def nextPow (n : Nat) : Nat → Nat → R Nat
  | 0, _ => .abort
  | fuel + 1, r => if r < n then (if r * 2 < 2 ^ 31 then nextPow n fuel (r * 2) else .abort) else .ok r

/-- The eight bytes of a 64-bit store, least significant first. -/
def store64 (v : Nat) : List Nat := store32 (v % 2 ^ 32) ++ store32 (v / 2 ^ 32)

/-- The bytes of a `buffer_entry` with what follows it, ft/msg_buffer.h:115-122, as `enqueue` fills them in (msg_buffer.cc:181-192):
key length, value length, type, freshness, sequence number, number of transactions, transactions, key, value. -/
def Msg.entry (m : Msg) (fresh : Bool) : List Nat :=
  store32 m.key.length ++ store32 m.val.length ++ [m.typ % 256] ++ [if fresh then 1 else 0] ++ store64 m.msn ++ [m.xids.length % 256] ++ m.xids.flatMap store64 ++ m.key ++ m.val

/-- `message_buffer::enqueue`, ft/msg_buffer.cc:173-198; gives the offset of the message.  `int` arithmetic that would overflow is
taken to stop like the assertion of `next_power_of_two`. -/
def MB.enqueue (b : MB) (m : Msg) (fresh : Bool) : R (MB × Nat) :=
  let total := b.mem.length + m.memsize
  if total > b.size then do
    let s ← nextPow total 32 4096
    pure (⟨b.mem ++ m.entry fresh, b.n + 1, s⟩, b.mem.length)
  else .ok (⟨b.mem ++ m.entry fresh, b.n + 1, b.size⟩, b.mem.length)

/-- `n` bytes of the buffer at an offset. -/
def MB.at (b : MB) (off n : Nat) : R (List Nat) := if off + n ≤ b.mem.length then .ok ((b.mem.drop off).take n) else .outside

/-- `message_buffer::set_freshness`, ft/msg_buffer.cc:200-203: the tenth byte of the entry. -/
def MB.setFreshness (b : MB) (off : Nat) (fresh : Bool) : R MB :=
  if off + 10 ≤ b.mem.length then .ok { b with mem := b.mem.set (off + 9) (if fresh then 1 else 0) } else .outside

/-- `message_buffer::get_freshness`, ft/msg_buffer.cc:205-208. -/
def MB.getFreshness (b : MB) (off : Nat) : R Bool := do
  let f ← b.at (off + 9) 1
  pure (le f != 0)

/-- The transactions of an entry: `n` 64-bit numbers at an offset. -/
def MB.xidsAt (b : MB) (off : Nat) : Nat → R (List Nat)
  | 0 => .ok []
  | n + 1 => do
    let x ← b.at off 8
    let xs ← b.xidsAt (off + 8) n
    pure (le x :: xs)

/-- `message_buffer::get_message`, ft/msg_buffer.cc:210-220. -/
def MB.getMessage (b : MB) (off : Nat) : R Msg := do
  let kl ← b.at off 4
  let vl ← b.at (off + 4) 4
  let t ← b.at (off + 8) 1
  let m ← b.at (off + 10) 8
  let nx ← b.at (off + 18) 1
  let xs ← b.xidsAt (off + 19) (le nx)
  let k ← b.at (off + 19 + 8 * le nx) (le kl)
  let v ← b.at (off + 19 + 8 * le nx + le kl) (le vl)
  pure ⟨le t, le m, xs, k, v⟩

/-- `message_buffer::iterate`, ft/msg_buffer.h:90-103, collecting what it visits: offset, message, freshness.  Every step moves by at least 19
bytes, so `_memory_used` steps are enough. -/
def MB.iterLoop (b : MB) : Nat → Nat → R (List (Nat × Msg × Bool))
  | 0, _ => .ok []
  | fuel + 1, off =>
    if off < b.mem.length then do
      let m ← b.getMessage off
      let f ← b.getFreshness off
      let rest ← b.iterLoop fuel (off + m.memsize)
      pure ((off, m, f) :: rest)
    else .ok []

/-- `message_buffer::iterate`, ft/msg_buffer.h:90-103. -/
def MB.iterate (b : MB) : R (List (Nat × Msg × Bool)) := b.iterLoop b.mem.length 0

/-! ### Types of messages -/

/-- `ft_msg_type_applies_once`, ft/msg.h:82-109; an unknown type stops. -/
def appliesOnce (t : Nat) : R Bool :=
  if t = 11 ∨ t = 1 ∨ t = 2 ∨ t = 4 ∨ t = 6 ∨ t = 14 then .ok true
  else if t = 8 ∨ t = 9 ∨ t = 10 ∨ t = 12 ∨ t = 13 ∨ t = 15 ∨ t = 0 then .ok false
  else .abort

/-! ### On disk -/

/-- `ft_msg::serialize_to_wbuf`, ft/msg.cc:111-118, with `wbuf_nocrc_xids`, ft/txn/xids.cc:228-234: the calls made. -/
def Msg.fields (m : Msg) (fresh : Bool) : List Field :=
  [.char (m.typ % 256), .char (if fresh then 1 else 0), .ull m.msn, .char (m.xids.length % 256)] ++ m.xids.map .ull ++ [.bytes m.key, .bytes m.val]

/-- The calls of `message_buffer::serialize_to_wbuf` after the first, ft/msg_buffer.cc:265-274. -/
def MB.writeAll (w : W) : List (Nat × Msg × Bool) → R W
  | [] => .ok w
  | (_, m, f) :: ms => do let w ← w.fields0 (m.fields f); MB.writeAll w ms

/-- `message_buffer::serialize_to_wbuf`, ft/msg_buffer.cc:263-275. -/
def MB.serialize (b : MB) (w : W) : R W := do
  let w ← w.int0 b.n
  let ms ← b.iterate
  MB.writeAll w ms

/-- The loop of `toku_xids_create_from_buffer`, ft/txn/xids.cc:148-150. -/
def Rd.xids (r : Rd) : Nat → R (List Nat × Rd)
  | 0 => .ok ([], r)
  | n + 1 => do
    let (x, r) ← r.ull
    let (xs, r) ← r.xids n
    pure (x :: xs, r)

/-- `ft_msg::deserialize_from_rbuf`, ft/msg.cc:51-63, with `toku_xids_create_from_buffer`, ft/txn/xids.cc:140-153. -/
def Rd.msg (r : Rd) : R (Msg × Bool × Rd) := do
  let (t, r) ← r.char
  let (f, r) ← r.char
  let (msn, r) ← r.ull
  let (nx, r) ← r.char
  if nx < 254 then
    let (xs, r) ← r.xids nx
    let (k, r) ← r.bytes
    let (v, r) ← r.bytes
    pure (⟨t, msn, xs, k, v⟩, f != 0, r)
  else .abort

/-- What `message_buffer::deserialize_from_rbuf` fills in: the buffer and the three arrays of offsets. -/
structure Filled where
  b : MB
  fresh : List Nat
  stale : List Nat
  bcast : List Nat
deriving Repr, DecidableEq

/-- The loop of `message_buffer::deserialize_from_rbuf`, ft/msg_buffer.cc:84-104. -/
def Filled.loop (s : Filled) (r : Rd) : Nat → R (Filled × Rd)
  | 0 => .ok (s, r)
  | n + 1 => do
    let (m, f, r) ← r.msg
    let once ← appliesOnce m.typ
    let (b, off) ← s.b.enqueue m f
    let s : Filled :=
      if once then (if f then { s with b := b, fresh := s.fresh ++ [off] } else { s with b := b, stale := s.stale ++ [off] })
      else { s with b := b, bcast := s.bcast ++ [off] }
    s.loop r n

/-- `message_buffer::deserialize_from_rbuf`, ft/msg_buffer.cc:65-107.  A count that is negative as an `int` fails at the allocation or at the last
invariant.  The arrays are filled in whether or not the caller wants them. -/
def MB.deserialize (r : Rd) : R (Filled × Rd) := do
  let (n, r) ← r.int
  if n < 2 ^ 31 then
    let (s, r) ← Filled.loop ⟨⟨[], 0, r.buf.length + 64⟩, [], [], []⟩ r n
    if s.b.n = n then pure (s, r) else .abort
  else .abort

/-! ### The buffer of a child with its trees -/

/-- `struct ftnode_nonleaf_childinfo`, ft/node.h:254-260: the buffer, the tree of fresh messages, which of those are marked, the tree of stale
messages and the list of broadcast messages.  A tree is the list of the offsets in it, in order. -/
structure Bnc where
  b : MB
  fresh : List Nat
  marked : List Nat
  stale : List Nat
  bcast : List Nat
deriving Repr, DecidableEq

/-- `toku_create_empty_nl`, ft/serialize/ft_node-serialize.cc:1022-1030. -/
def Bnc.empty : Bnc := ⟨MB.create, [], [], [], []⟩

/-- `key_msn_cmp`, ft/node.cc:1680-1693. -/
def keyMsnCmp (cmp : List Nat → List Nat → Ordering) (ka : List Nat) (ma : Nat) (kb : List Nat) (mb : Nat) : Ordering :=
  match cmp ka kb with
  | .eq => if ma > mb then .gt else if ma < mb then .lt else .eq
  | o => o

/-- `toku_msg_buffer_key_msn_heaviside`, ft/node.cc:1695-1700. -/
def heaviside (cmp : List Nat → List Nat → Ordering) (b : MB) (k : List Nat) (msn : Nat) (off : Nat) : R Ordering := do
  let m ← b.getMessage off
  pure (keyMsnCmp cmp m.key m.msn k msn)

/-- `omt::insert`, util/omt.cc, on the list of what the tree holds: a value that compares equal is refused, otherwise the new one goes before the
first that compares greater.  The binary search of the tree is not modelled here. -/
def omtInsert (h : Nat → R Ordering) (x : Nat) : List Nat → R (List Nat)
  | [] => .ok [x]
  | y :: ys => do
    match ← h y with
    | .lt => do let zs ← omtInsert h x ys; pure (y :: zs)
    | .eq => .abort
    | .gt => pure (x :: y :: ys)

/-- `bnc_insert_msg`, ft/node.cc:1710-1732. -/
def Bnc.insert (cmp : List Nat → List Nat → Ordering) (c : Bnc) (m : Msg) (fresh : Bool) : R (Bnc × Nat) := do
  let (b, off) ← c.b.enqueue m fresh
  let once ← appliesOnce m.typ
  if once then
    if fresh then
      let t ← omtInsert (heaviside cmp b m.key m.msn) off c.fresh
      pure ({ c with b := b, fresh := t }, off)
    else
      let t ← omtInsert (heaviside cmp b m.key m.msn) off c.stale
      pure ({ c with b := b, stale := t }, off)
  else pure ({ c with b := b, bcast := c.bcast ++ [off] }, off)

/-- What a query does to a message it applies to a leaf: the end of `do_bn_apply_msg`, ft/node.cc:252, and, for one found in the fresh tree, the mark set by
`iterate_and_mark_range` (ft/node.cc:450-454, 491-494). -/
def Bnc.applied (c : Bnc) (off : Nat) : R Bnc := do
  let b ← c.b.setFreshness off false
  pure { c with b := b, marked := if off ∈ c.fresh then off :: c.marked else c.marked }

/-- `iterate_over_marked` with `copy_to_stale`, ft/node.cc:778-792. -/
def Bnc.copyAll (cmp : List Nat → List Nat → Ordering) (b : MB) : List Nat → List Nat → R (List Nat)
  | [], stale => .ok stale
  | off :: offs, stale => do
    let m ← b.getMessage off
    let s ← omtInsert (heaviside cmp b m.key m.msn) off stale
    Bnc.copyAll cmp b offs s

/-- `toku_ft_bnc_move_messages_to_stale`, ft/node.cc:789-794. -/
def Bnc.moveToStale (cmp : List Nat → List Nat → Ordering) (c : Bnc) : R Bnc := do
  let s ← Bnc.copyAll cmp c.b (c.fresh.filter (· ∈ c.marked)) c.stale
  pure { c with fresh := c.fresh.filter (· ∉ c.marked), marked := [], stale := s }

/-- One offset array: its length and its elements, ft/serialize/ft_node-serialize.cc:307-317. -/
def offsetFields (l : List Nat) : List Field := .int l.length :: l.map .int

/-- `serialize_child_buffer`, ft/serialize/ft_node-serialize.cc:297-318. -/
def Bnc.serialize (c : Bnc) (w : W) : R W := do
  let w ← w.char0 0xbb
  let w ← c.b.serialize w
  let w ← w.fields0 (offsetFields c.fresh)
  let w ← w.fields0 (offsetFields c.stale)
  w.fields0 (offsetFields c.bcast)

/-- `serialize_ftnode_partition_size` of a child buffer, ft/serialize/ft_node-serialize.cc:244-265, in 32-bit arithmetic; the last four bytes are for the
checksum the caller adds. -/
def Bnc.partitionSize (c : Bnc) : Nat :=
  m32 (1 + (4 + c.b.mem.length) + (4 + 4 * c.fresh.length) + (4 + 4 * c.stale.length) + (4 + 4 * c.bcast.length) + 4)

/-- Reading `n` offsets. -/
def Rd.ints (r : Rd) : Nat → R (List Nat × Rd)
  | 0 => .ok ([], r)
  | n + 1 => do
    let (x, r) ← r.int
    let (xs, r) ← r.ints n
    pure (x :: xs, r)

/-- One offset array, ft/serialize/ft_node-serialize.cc:932-948; a negative count fails at the allocation. -/
def Rd.offsets (r : Rd) : R (List Nat × Rd) := do
  let (n, r) ← r.int
  if n < 2 ^ 31 then r.ints n else .abort

/-- `deserialize_child_buffer`, ft/serialize/ft_node-serialize.cc:923-958, after the byte that names the partition was read. -/
def Bnc.deserialize (r : Rd) : R (Bnc × Rd) := do
  let (s, r) ← MB.deserialize r
  let (fresh, r) ← r.offsets
  let (stale, r) ← r.offsets
  let (bcast, r) ← r.offsets
  pure (⟨s.b, fresh, [], stale, bcast⟩, r)

/-- Insertion into a sorted array, the array sorted by `toku::sort::mergesort_r` (util/sort.h): a stable sort.  The merging itself is not modelled. -/
def sortedInsert (cmp : List Nat → List Nat → Ordering) (b : MB) (x : Nat) (l : List Nat) : R (List Nat) :=
  match l with
  | [] => .ok [x]
  | y :: ys => do
    let mx ← b.getMessage x
    match ← heaviside cmp b mx.key mx.msn y with
    | .lt => do let zs ← sortedInsert cmp b x ys; pure (y :: zs)
    | _ => pure (x :: y :: ys)

/-- `mergesort_r` with `toku_msg_buffer_key_msn_cmp`, ft/serialize/ft_node-serialize.cc:855-865. -/
def sortOffsets (cmp : List Nat → List Nat → Ordering) (b : MB) : List Nat → R (List Nat)
  | [] => .ok []
  | x :: xs => do
    let l ← sortOffsets cmp b xs
    sortedInsert cmp b x l

/-- `deserialize_child_buffer_v26` with `sort_and_steal_offset_arrays`, ft/serialize/ft_node-serialize.cc:838-868, 898-921, given a comparison. -/
def Bnc.deserialize26 (cmp : List Nat → List Nat → Ordering) (r : Rd) : R (Bnc × Rd) := do
  let (s, r) ← MB.deserialize r
  let fresh ← sortOffsets cmp s.b s.fresh
  let stale ← sortOffsets cmp s.b s.stale
  pure (⟨s.b, fresh, [], stale, s.bcast⟩, r)

end Verif.Ser
