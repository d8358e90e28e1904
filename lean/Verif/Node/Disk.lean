import Verif.Node.Compress
import Verif.Node.Bn
import Verif.Node.Pivot
import Verif.Ser.MsgBuf
/-!
Nodes on disk: ft/serialize/ft_node-serialize.cc.  Only the current layout version is modelled; a block of another version stops
the model.  Sizes kept in `uint32_t` wrap.
-/
namespace Verif.Node
open Verif.Ser

/-- `FT_LAYOUT_VERSION`, ft/serialize/ft_layout_version.h:73. -/
def nodeVersion : Nat := 29

/-- One partition: a basement node of a leaf, with the number of the last message applied to it (ft/node.h:235-246), or the buffer
of a child of an internal node. -/
inductive Part where
  | leaf (b : Bn) (msn : Nat)
  | inner (c : Bnc)
deriving Repr, DecidableEq

/-- What of `struct ftnode` (ft/node.h:163-220) does not lie in the partitions: the fields that go to disk, and the block numbers
of the children. -/
structure Fields where
  original : Nat
  build : Nat
  msn : Nat
  flags : Nat
  height : Nat
  oldest : Nat
  pivots : Pk
  blocks : List Nat
deriving Repr, DecidableEq

/-- A node fully in memory. -/
structure FNode where
  f : Fields
  parts : List Part
deriving Repr, DecidableEq

/-- `roundup_to_multiple(512, n)`, portability/toku_portability.h. -/
def roundup512 (n : Nat) : Nat := (n + 511) / 512 * 512

/-! ### Writing -/

/-- `serialize_node_header_size`, 209-220. -/
def headerSize (n : Nat) : Nat := m32 (8 + 4 + 4 + 4 + 4 + n * 8 + 4)

/-- "tokuleaf" -/
def magicLeaf : List Nat := [116, 111, 107, 117, 108, 101, 97, 102]
/-- "tokunode" -/
def magicNode : List Nat := [116, 111, 107, 117, 110, 111, 100, 101]

/-- The loop of `serialize_node_header`, 232-236: start and size of each partition. -/
def writePlaces : List (Nat × Nat) → W → R W
  | [], w => .ok w
  | (start, size) :: l, w =>
    if 0 < size then do
      let w ← w.int0 start
      let w ← w.int0 size
      writePlaces l w
    else .abort

/-- The checksum of all that is written, and the end of the buffer: 238-240, 353-356, 454-457. -/
def sealW (w : W) : R W := do
  let w ← w.int0 (memory w.out)
  if w.out.length = w.size then .ok w else .abort

/-- `serialize_node_header`, 222-241.  `build` is the constant `BUILD_ID` of the program that writes. -/
def writeNodeHeader (build : Nat) (f : Fields) (places : List (Nat × Nat)) (w : W) : R W := do
  let w ← w.literal0 (if f.height = 0 then magicLeaf else magicNode)
  let w ← w.int0 nodeVersion
  let w ← w.int0 f.original
  let w ← w.int0 build
  let w ← w.int0 places.length
  let w ← writePlaces places w
  sealW w

/-- `serialize_ftnode_partition_size`, 243-265.  A leaf has basement nodes and an internal node has buffers; the other is memory of
another kind. -/
def Part.size (height : Nat) : Part → R Nat
  | .inner c => if 0 < height then .ok c.partitionSize else .outside
  | .leaf b _ => if 0 < height then .outside else .ok (m32 (1 + (4 + 14) + b.diskSize + 4))

/-- `serialize_ftnode_partition`, 325-357, into a buffer of the given size: the partition afterwards, and the bytes. -/
def Part.write (height : Nat) (p : Part) (size : Nat) : R (Part × List Nat) :=
  if 0 < size then
    match p with
    | .inner c =>
      if 0 < height then do
        let w ← c.serialize (W.init size)
        let w ← sealW w
        pure (.inner c, w.out)
      else .outside
    | .leaf b msn =>
      if 0 < height then .outside
      else do
        let w ← (W.init size).char0 0xaa
        let w ← w.int0 b.num
        let (b, w) ← b.serialize w
        let w ← sealW w
        pure (.leaf b msn, w.out)
  else .abort

/-- `compress_ftnode_sub_block`, 363-402: the compressed bytes with the two sizes before them, and their checksum. -/
def compressSub (L : Lib) (m : Method) (data : List Nat) : R (List Nat × Nat) :=
  if 0 < compressBound L m data.length then do
    let body ← compress L m (compressBound L m data.length) data
    let all := store32 body.length ++ (store32 data.length ++ body)
    pure (all, memory all)
  else .abort

/-- `serialize_and_compress_partition`, 483-499, with the size set up at 664-667. -/
def Part.pack (L : Lib) (m : Method) (height : Nat) (p : Part) : R (Part × List Nat × Nat) := do
  let size ← p.size height
  let (p, data) ← p.write height size
  let sub ← compressSub L m data
  pure (p, sub)

/-- `serialize_and_compress_serially`, 536-545.  The parallel form, 546-600, does the same calls: each partition has buffers of
its own. -/
def packAll (L : Lib) (m : Method) (height : Nat) : List Part → R (List Part × List (List Nat × Nat))
  | [] => .ok ([], [])
  | p :: ps => do
    let (p, sub) ← p.pack L m height
    let (ps, subs) ← packAll L m height ps
    pure (p :: ps, sub :: subs)

/-- `serialize_ftnode_info_size`, 411-430. -/
def infoSize (f : Fields) (n : Nat) : Nat :=
  m32 (8 + 4 + 4 + 4 + 8 + f.pivots.serializedSize + (n - 1) * 4 + (if 0 < f.height then n * 8 else 0) + 4)

/-- The loop over the children of `serialize_ftnode_info`, 447-451. -/
def writeBlocks : List Nat → W → R W
  | [], w => .ok w
  | b :: bs, w => do
    let w ← w.ull0 b
    writeBlocks bs w

/-- The children, only for internal nodes: 446-451. -/
def writeChildren (f : Fields) (w : W) : R W := if 0 < f.height then writeBlocks f.blocks w else .ok w

/-- `serialize_ftnode_info`, 432-458, into a buffer of the given size. -/
def writeInfo (f : Fields) (size : Nat) : R (List Nat) :=
  if 0 < size then do
    let w ← (W.init size).ull0 f.msn
    let w ← w.int0 0
    let w ← w.int0 f.flags
    let w ← w.int0 f.height
    let w ← w.ull0 f.oldest
    let w ← f.pivots.serialize w
    let w ← writeChildren f w
    let w ← sealW w
    pure w.out
  else .abort

/-- Start and size of each partition, and the size of the node: 726-733, in 32-bit arithmetic. -/
def places : Nat → List (List Nat × Nat) → List (Nat × Nat) × Nat
  | total, [] => ([], total)
  | total, sub :: subs =>
    let r := places (m32 (total + m32 (sub.1.length + 4))) subs
    ((total, m32 (sub.1.length + 4)) :: r.1, r.2)

/-- A sub block as it is copied to the node, with its checksum: 745-759. -/
def subBytes (sub : List Nat × Nat) : List Nat := sub.1 ++ store32 sub.2

/-- `toku_serialize_ftnode_to_memory`, 626-774, without rebalancing: the node afterwards, where its partitions are, and the bytes
to write. -/
def FNode.toMemory (L : Lib) (m : Method) (build : Nat) (n : FNode) : R (FNode × List (Nat × Nat) × List Nat) := do
  let (parts, subs) ← packAll L m n.f.height n.parts
  let info ← writeInfo n.f (infoSize n.f n.parts.length)
  let isub ← compressSub L m info
  let pl := places (m32 (headerSize n.parts.length + isub.1.length + 4)) subs
  let size := m32 (roundup512 pl.2)
  let w ← writeNodeHeader build n.f pl.1 (W.init (headerSize n.parts.length))
  let bytes := w.out ++ subBytes isub ++ subs.flatMap subBytes
  if bytes.length ≤ size then
    if bytes.length = pl.2 then
      if size % 512 = 0 then .ok ({ n with parts := parts }, pl.1, bytes ++ List.replicate (size - pl.2) 0) else .abort
    else .abort
  else .outside

/-! ### Reading -/

/-- `read_compressed_sub_block`, 1113-1128: the compressed bytes and the size they decompress to, or `none` for a bad checksum.
The checksum covers the eight bytes before the compressed ones. -/
def readSub (r : Rd) : R (Option (List Nat × Nat) × Rd) := do
  let (csize, r1) ← r.int
  let (un, r1) ← r1.int
  let (body, r1) ← r1.literal csize
  let (xsum, r1) ← r1.int
  pure (if xsum = memory ((r.buf.drop r.ndone).take (8 + csize)) then some (body, un) else none, r1)

/-- `verify_ftnode_sub_block`, 1161-1184, on `un` bytes: whether the last four are the checksum of the others. -/
def verifySub (data : List Nat) : R Bool :=
  if 4 ≤ data.length then .ok (le ((data.drop (data.length - 4)).take 4) = memory (data.take (data.length - 4))) else .outside

/-- The loop over the children of `deserialize_ftnode_info`, 1243-1248. -/
def readBlocks : Nat → Rd → R (List Nat × Rd)
  | 0, r => .ok ([], r)
  | n + 1, r => do
    let (b, r) ← r.ull
    let (bs, r) ← readBlocks n r
    pure (b :: bs, r)

/-- The pivots of `deserialize_ftnode_info`, 1233-1238. -/
def readPivots (n : Nat) (r : Rd) : R (Pk × Rd) :=
  if 1 < n then Pk.deserialize r (n - 1) else .ok (Pk.empty, r)

/-- The children, only for internal nodes: 1242-1248. -/
def readChildren (height n : Nat) (r : Rd) : R (List Nat × Rd) := if 0 < height then readBlocks n r else .ok ([], r)

/-- `deserialize_ftnode_info`, 1187-1267, of the current version; `n` is the number of children from the header. -/
def readInfo (original build n : Nat) (data : List Nat) : R (Option Fields) := do
  let ok ← verifySub data
  if ok then
    let r : Rd := ⟨data.take (data.length - 4), 0⟩
    let (msn, r) ← r.ull
    let (_, r) ← r.int
    let (flags, r) ← r.int
    let (height, r) ← r.int
    let (oldest, r) ← r.ull
    let (pivots, r) ← readPivots n r
    let (blocks, r) ← readChildren height n r
    if data.length - 4 = r.ndone then pure (some ⟨original, build, msn, flags, height, oldest, pivots, blocks⟩) else .abort
  else pure none

/-- `deserialize_ftnode_partition`, 1379-1473, of the current version.  The message number of a basement node is that of the node
(`setup_available_ftnode_partition`, 1271-1279). -/
def readPart (f : Fields) (data : List Nat) : R (Option Part) := do
  let ok ← verifySub data
  if ok then
    let (ch, r) ← (⟨data.take (data.length - 4), 0⟩ : Rd).char
    if 0 < f.height then
      if ch = 0xbb then do
        let (c, r) ← Bnc.deserialize r
        if r.ndone = data.length - 4 then pure (some (.inner c)) else .abort
      else .abort
    else
      if ch = 0xaa then do
        let (num, r) ← r.int
        let (b, r) ← Bn.deserialize num r (data.length - 4 - r.ndone)
        if r.ndone = data.length - 4 then pure (some (.leaf b f.msn)) else .abort
      else .abort
  else pure none

/-- A partition of a node in the cache: available, compressed, or only on disk. -/
inductive Slot where
  | avail (p : Part)
  | compressed (body : List Nat) (un : Nat)
  | onDisk
deriving Repr, DecidableEq

/-- A node in the cache. -/
structure Cached where
  f : Fields
  places : List (Nat × Nat)
  slots : List Slot
deriving Repr, DecidableEq

/-- Decompressing and reading a partition: `toku_deserialize_bp_from_compressed`, 2614-2665, the end of
`toku_deserialize_bp_from_disk`, 2587-2597, and `decompress_and_deserialize_worker`, 1475-1519. -/
def expand (L : Lib) (f : Fields) (body : List Nat) (un : Nat) : R (Option Part) := do
  let data ← decompress L un body
  readPart f data

/-- The loop of the header over the places of the partitions, 1684-1688 and 2344-2348. -/
def readPlaces : Nat → Rd → R (List (Nat × Nat) × Rd)
  | 0, r => .ok ([], r)
  | n + 1, r => do
    let (start, r) ← r.int
    let (size, r) ← r.int
    let (l, r) ← readPlaces n r
    pure ((start, size) :: l, r)

/-- One partition of a block that is in memory, 2407-2475: read if it is wanted, copied in its compressed form otherwise
(`check_and_copy_compressed_sub_block_worker`, 1521-1541). -/
def readSlot (L : Lib) (f : Fields) (buf : List Nat) (wanted : Bool) (place : Nat × Nat) : R (Option Slot) :=
  if place.1 + place.2 ≤ buf.length then do
    let (sub, _) ← readSub ⟨(buf.drop place.1).take place.2, 0⟩
    match sub with
    | none => pure none
    | some (body, un) =>
      if wanted then do
        match ← expand L f body un with
        | some p => pure (some (.avail p))
        | none => pure none
      else pure (some (.compressed body un))
  else .outside

/-- The loop over the partitions, 2403-2476; it ends at the first error. -/
def readSlots (L : Lib) (f : Fields) (buf : List Nat) (wanted : Nat → Bool) : Nat → List (Nat × Nat) → R (Option (List Slot))
  | _, [] => .ok (some [])
  | i, pl :: pls => do
    match ← readSlot L f buf (wanted i) pl with
    | none => pure none
    | some s =>
      match ← readSlots L f buf wanted (i + 1) pls with
      | none => pure none
      | some ss => pure (some (s :: ss))

/-- The start of a block: magic, version, version the node was made with, build, number of children. -/
def readFront (r : Rd) : R (Option (Nat × Nat × Nat) × Rd) := do
  let (magic, r) ← r.literal 8
  if magic = magicLeaf ∨ magic = magicNode then do
    let (version, r) ← r.int
    if version = nodeVersion then do
      let (original, r) ← r.int
      let (build, r) ← r.int
      let (n, r) ← r.int
      if n < 2 ^ 31 then pure (some (original, build, n), r) else .abort
    else .abort
  else pure (none, r)

/-- `deserialize_ftnode_from_rbuf`, 2253-2531: a whole block.  Which partitions are wanted is decided by the caller's
`ftnode_fetch_extra` (1309-1356). -/
def fromBlock (L : Lib) (wanted : Nat → Bool) (buf : List Nat) : R (Option Cached) := do
  let (front, r) ← readFront ⟨buf, 0⟩
  match front with
  | none => pure none
  | some (original, build, n) =>
    let (pls, r) ← readPlaces n r
    let sum := memory (buf.take r.ndone)
    let (stored, r) ← r.int
    if stored = sum then do
      let (sub, _) ← readSub r
      match sub with
      | none => pure none
      | some (body, un) =>
        let data ← decompress L un body
        match ← readInfo original build n data with
        | none => pure none
        | some f =>
          match ← readSlots L f buf wanted 0 pls with
          | none => pure none
          | some slots => pure (some ⟨f, pls, slots⟩)
    else .abort

/-- `deserialize_ftnode_header_from_rbuf_if_small_enough`, 1554-1822, up to the fetch of partitions: `none` means that the whole
block has to be read. -/
def fromHeader (L : Lib) (buf : List Nat) : R (Option Cached) :=
  if buf.length < 24 then .ok none
  else do
    let (front, r) ← readFront ⟨buf, 0⟩
    match front with
    | none => pure none
    | some (original, build, n) =>
      if m32 (headerSize n + 12) ≤ buf.length then do
        let (pls, r) ← readPlaces n r
        let sum := memory (buf.take r.ndone)
        let (stored, r) ← r.int
        if stored = sum then do
          let start := r
          let (csize, r) ← r.int
          let (un, r) ← r.int
          if m32 (csize + 8) ≤ buf.length - r.ndone then do
            let (body, r) ← r.literal csize
            let (xsum, _) ← r.int
            if xsum = memory ((start.buf.drop start.ndone).take (8 + csize)) then do
              let data ← decompress L un body
              match ← readInfo original build n data with
              | none => pure none
              | some f => pure (some ⟨f, pls, pls.map fun _ => .onDisk⟩)
            else pure none
          else pure none
        else pure none
      else pure none

/-- `toku_os_pread`. -/
def pread (file : List Nat) (off n : Nat) : List Nat := (file.drop off).take n

/-- `toku_deserialize_bp_from_disk`, 2534-2611: one partition of the block at `off` in the file. -/
def bpFromDisk (L : Lib) (file : List Nat) (off : Nat) (f : Fields) (place : Nat × Nat) : R (Option Part) :=
  let pad := (off + place.1) % 512
  let padded := m32 (roundup512 (pad + place.2))
  let raw := pread file (off + place.1 - pad) padded
  if padded % 512 = 0 ∧ (off + place.1 - pad) % 512 = 0 then
    if pad + place.2 ≤ raw.length ∧ raw.length ≤ padded then do
      let (sub, _) ← readSub ⟨(raw.drop pad).take place.2, 0⟩
      match sub with
      | none => pure none
      | some (body, un) => expand L f body un
    else .abort
  else .abort

/-- One turn of `toku_ftnode_pf_callback`, ft/ft-ops.cc:1325-1352, for a wanted partition of a node in the cache: it stops the
process on an error. -/
def Cached.fetch (L : Lib) (file : List Nat) (off : Nat) (c : Cached) (i : Nat) : R Cached :=
  match c.slots[i]?, c.places[i]? with
  | some (.avail _), some _ => .ok c
  | some (.compressed body un), some _ => do
    match ← expand L c.f body un with
    | some p => pure { c with slots := c.slots.set i (.avail p) }
    | none => .abort
  | some .onDisk, some place => do
    match ← bpFromDisk L file off c.f place with
    | some p => pure { c with slots := c.slots.set i (.avail p) }
    | none => .abort
  | _, _ => .outside

/-- Fetching several partitions, one after the other. -/
def Cached.fetchAll (L : Lib) (file : List Nat) (off : Nat) (c : Cached) : List Nat → R Cached
  | [] => .ok c
  | i :: is => do
    let c ← c.fetch L file off i
    c.fetchAll L file off is

/-- `read_block_from_fd_into_rbuf`, 1061-1078. -/
def readBlock (file : List Nat) (off size : Nat) : R (List Nat) :=
  let raw := pread file off (roundup512 size)
  if size ≤ raw.length ∧ raw.length ≤ roundup512 size then .ok (raw.take size) else .abort

/-- `read_ftnode_header_from_fd_into_rbuf_if_small_enough`, 1087-1109. -/
def readSome (file : List Nat) (off size : Nat) : List Nat := pread file off (roundup512 (min (32 * 1024) size))

/-- The front of a block read alone, if the caller does not want all of it: 2723-2731. -/
def tryFront (L : Lib) (file : List Nat) (off size : Nat) (all : Bool) : R (Option Cached) :=
  if all then .ok none else fromHeader L (readSome file off size)

/-- `toku_deserialize_ftnode_from`, 2710-2737, of the block of the given size at `off`.  With `all` the whole block is read;
otherwise, if its front can be read alone, only that, and then the wanted partitions among the first `n`. -/
def load (L : Lib) (file : List Nat) (off size : Nat) (all : Bool) (wanted : Nat → Bool) : R (Option Cached) := do
  let front ← tryFront L file off size all
  match front with
  | some c => do
    let c ← c.fetchAll L file off ((List.range c.slots.length).filter wanted)
    pure (some c)
  | none => do
    let block ← readBlock file off size
    fromBlock L wanted block

/-- `toku_create_compressed_partition_from_available`, 501-534: a partition that is put aside compressed in memory. -/
def Part.squeeze (L : Lib) (m : Method) (height : Nat) (p : Part) : R (Slot) := do
  let size ← p.size height
  let (_, data) ← p.write height size
  let body ← compress L m (compressBound L m size) data
  pure (.compressed body size)

/-- One partition of a node that is not dirty leaves memory: one turn of the loops of `toku_ftnode_pe_callback`,
ft/ft-ops.cc:961-1044, for a partition whose clock has run out.  `keep` is `ft_compress_buffers_before_eviction`; buffers are
then always compressed with quicklz.  Which partitions are chosen is left open.  The messages that queries have applied are filed
first (979); here there are none. -/
def Cached.evict (L : Lib) (keep : Bool) (c : Cached) (i : Nat) : R Cached :=
  match c.slots[i]? with
  | some (.avail p) =>
    if 0 < c.f.height ∧ keep = true then do
      let s ← p.squeeze L .quicklz c.f.height
      pure { c with slots := c.slots.set i s }
    else .ok { c with slots := c.slots.set i .onDisk }
  | some (.compressed _ _) => if 0 < c.f.height then .ok c else .ok { c with slots := c.slots.set i .onDisk }
  | some .onDisk => .ok c
  | none => .outside

end Verif.Node
