import Verif.Ser.Buf
/-!
The dictionary header and its two places in the file: ft/serialize/ft-serialize.cc and the checkpoint callbacks of ft/ft.cc.

Simplifications.  Reads never fail with an error of the system.  What is stored after the header is read (the block table, the
upgrade of estimates and message numbers from versions below 21, the descriptor) is not part of `readHeader`.
-/
namespace Verif.Ser

/-- `struct ft_header` as stored, ft/serialize/ft-serialize.cc:813-854, with the address and size of the block table. -/
structure Header where
  buildId : Nat
  count : Nat
  lsn : Nat
  nodesize : Nat
  transAddr : Nat
  transSize : Nat
  root : Nat
  flags : Nat
  versionOriginal : Nat
  buildIdOriginal : Nat
  timeCreated : Nat
  timeModified : Nat
  xidCreated : Nat
  basementSize : Nat
  timeVerified : Nat
  numRows : Nat
  numBytes : Nat
  optimizeBegin : Nat
  optimizeEnd : Nat
  optimizeCount : Nat
  optimizeMsn : Nat
  compression : Nat
  upgradeMsn : Nat
  maxMsn : Nat
  fanout : Nat
  logicalRows : Nat
deriving Repr, DecidableEq

/-- `FT_LAYOUT_VERSION` and `FT_LAYOUT_MIN_SUPPORTED_VERSION`, ft/serialize/ft_layout_version.h:76-79. -/
def layoutVersion : Nat := 29
def minVersion : Nat := 13

/-- `BLOCK_ALLOCATOR_HEADER_RESERVE`, ft/serialize/block_allocator.h:70. -/
def headerReserve : Nat := 4096

/-- "tokudata". -/
def magic : List Nat := [116, 111, 107, 117, 100, 97, 116, 97]

/-- `toku_byte_order_host` in memory, portability/toku_htod.h:75. -/
def byteOrder : List Nat := [8, 7, 6, 5, 4, 3, 2, 1]

/-- `serialize_ft_min_size`, ft/serialize/ft-serialize.cc:414-507.  The fall-through cases as one sum; `none` is `abort()`. -/
def minSize (v : Nat) : Option Nat :=
  if v < 12 ∨ 29 < v then none
  else some ((8 + 4 + 4 + 4 + 8 + 8 + 8 + 4 + 8 + 8 + 4 + 8 + 8 + 4)
    + (if 13 ≤ v then 4 + 4 + 8 + 8 else 0)
    + (if 14 ≤ v then 8 else 0)
    + (if 15 ≤ v then 4 + 8 + 8 else 0)
    + (if 17 ≤ v then 16 else 0)
    + (if 18 ≤ v then 8 + 8 + 4 + 8 else 0) - (if 18 ≤ v then 8 + 8 else 0)
    + (if 19 ≤ v then 1 + 8 else 0)
    + (if 21 ≤ v then 8 else 0)
    + (if 28 ≤ v then 4 else 0)
    + (if 29 ≤ v then 8 else 0))

/-- The calls of `toku_serialize_ft_to_wbuf` up to the checksum, ft-serialize.cc:820-849, for a buffer of `size` bytes. -/
def Header.fields (h : Header) (size : Nat) : List Field :=
  [.literal magic, .networkInt layoutVersion, .networkInt h.buildId, .networkInt size, .literal byteOrder, .ull h.count, .ull h.lsn, .int h.nodesize,
   .ull h.transAddr, .ull h.transSize, .ull h.root, .int h.flags, .int h.versionOriginal, .int h.buildIdOriginal, .ull h.timeCreated, .ull h.timeModified,
   .ull h.xidCreated, .int h.basementSize, .ull h.timeVerified, .ull h.numRows, .ull h.numBytes, .ull h.optimizeBegin, .ull h.optimizeEnd,
   .int h.optimizeCount, .ull h.optimizeMsn, .char h.compression, .ull h.upgradeMsn, .ull h.maxMsn, .int h.fanout, .ull h.logicalRows]

/-- `toku_serialize_ft_to_wbuf` into a buffer of the size given by `toku_serialize_ft_size`, ft-serialize.cc:806-854, 873-881. -/
def Header.serialize (h : Header) : R (List Nat) :=
  match minSize layoutVersion with
  | none => .abort
  | some size => do
    let w ← (W.init size).fields (h.fields size)
    let w ← w.int w.x.finish
    if w.out.length = w.size then pure w.out else .abort

/-- `roundup_to_multiple(512, n)`. -/
def roundup512 (n : Nat) : Nat := (n + 511) / 512 * 512

/-- The buffer padded with zeros, ft-serialize.cc:873-879. -/
def pad512 (bs : List Nat) : List Nat := bs ++ List.replicate (roundup512 bs.length - bs.length) 0

/-- The two places of the header: the file from offset 0, and from offset 4096.  Only the first 4096 bytes of each matter. -/
structure File where
  s0 : List Nat
  s1 : List Nat
deriving Repr, DecidableEq

/-- A write at the beginning of a place. -/
def overwrite (old new : List Nat) : List Nat := new ++ old.drop new.length

/-- The place a header goes to: `main_offset`, ft-serialize.cc:905-909: odd counts to the first. -/
def atFirst (count : Nat) : Bool := count % 2 = 1

/-- `toku_serialize_ft_to`, ft-serialize.cc:856-913, the write of the header; the block table is on disk before. -/
def writeHeader (f : File) (h : Header) : R File := do
  let bs ← h.serialize
  pure (if atFirst h.count then { f with s0 := overwrite f.s0 (pad512 bs) } else { f with s1 := overwrite f.s1 (pad512 bs) })

inductive Err where
  | noHeader | invalid | tooOld | tooNew | badChecksum
deriving Repr, DecidableEq

/-- What `deserialize_ft_from_fd_into_rbuf` finds. -/
structure Found where
  count : Nat
  lsn : Nat
  version : Nat
  bytes : List Nat
deriving Repr, DecidableEq

/-- `deserialize_ft_from_fd_into_rbuf`, ft-serialize.cc:509-642, on the bytes at the offset. -/
def readSlot (s : List Nat) : R (Except Err Found) :=
  if (s.take 512).length ≠ 512 then .ok (.error (if (s.take 512).length = 0 then .noHeader else .invalid))
  else do
    let (m, r) ← (⟨s.take 20, 0⟩ : Rd).literal 8
    if m ≠ magic then pure (.error (if le m = 0 then .noHeader else .invalid))
    else
      let (version, r) ← r.networkInt
      if version < minVersion then pure (.error .tooOld)
      else if layoutVersion < version then pure (.error .tooNew)
      else
        let (_, r) ← r.networkInt
        match minSize version with
        | none => .abort
        | some least =>
          let (size, r) ← r.networkInt
          if headerReserve < size ∨ size < least then pure (.error .noHeader)
          else if r.ndone ≠ 20 then .abort
          else if (s.take (roundup512 size)).length ≠ roundup512 size then pure (.error .invalid)
          else
            let buf := s.take size
            if memory (buf.take (size - 4)) ≠ le ((buf.drop (size - 4)).take 4) then pure (.error .badChecksum)
            else
              let (order, r) ← (⟨buf, r.ndone⟩ : Rd).literal 8
              if order ≠ byteOrder then pure (.error .noHeader)
              else
                let (count, r) ← r.ull
                let (lsn, _) ← r.ull
                pure (.ok ⟨count, lsn, version, buf⟩)

/-- The calls of `deserialize_ft_versioned`, ft-serialize.cc:147-345: what is read from a header of the given version, up to and
including the checksum. -/
def headerReads (v : Nat) : List Kind :=
  [.literal 8, .networkInt, .networkInt, .networkInt, .literal 8, .ull, .ull, .int, .ull, .ull, .ull, .int, .int, .int, .ull, .ull]
  ++ (if v ≤ 18 then .ull :: (if 15 ≤ v then [.ull] else []) else [])
  ++ (if 14 ≤ v then [.ull] else [])
  ++ (if 15 ≤ v then [.int, .ull] else [])
  ++ (if 18 ≤ v then [.ull, .ull, .ull, .ull, .int, .ull] else [])
  ++ (if 19 ≤ v then [.char, .ull] else [])
  ++ (if 21 ≤ v then [.ull] else [])
  ++ (if 28 ≤ v then [.int] else [])
  ++ (if 29 ≤ v then [.ull] else [])
  ++ [.int]

/-- `TOKU_DB_VALCMP_BUILTIN_13`, ft/ft-ops.h:227: the flag removed on upgrade from version 13. -/
def valcmpBuiltin13 : Nat := 8

/-- A header being filled in, and the values still to be taken. -/
abbrev Filling := Option (Header × List Field)

/-- The two counts of blocks to upgrade are read and dropped, ft-serialize.cc:256-263. -/
def Filling.upgrade (v : Nat) : Filling → Filling
  | some (h, fs) =>
    if v ≤ 18 then
      match fs with
      | .ull _ :: fs =>
        if 15 ≤ v then
          match fs with
          | .ull _ :: fs => some (h, fs)
          | _ => none
        else some (h, fs)
      | _ => none
    else some (h, fs)
  | none => none

/-- ft-serialize.cc:265-270. -/
def Filling.xid (v : Nat) : Filling → Filling
  | some (h, fs) =>
    if 14 ≤ v then
      match fs with
      | .ull x :: fs => some ({ h with xidCreated := x }, fs)
      | _ => none
    else some (h, fs)
  | none => none

/-- ft-serialize.cc:272-281. -/
def Filling.basement (v : Nat) : Filling → Filling
  | some (h, fs) =>
    if 15 ≤ v then
      match fs with
      | .int b :: .ull t :: fs => some ({ h with basementSize := b, timeVerified := t }, fs)
      | _ => none
    else some (h, fs)
  | none => none

/-- ft-serialize.cc:283-301. -/
def Filling.stats (v : Nat) : Filling → Filling
  | some (h, fs) =>
    if 18 ≤ v then
      match fs with
      | .ull nr :: .ull nb :: .ull ob :: .ull oe :: .int oc :: .ull om :: fs =>
        some ({ h with numRows := nr, numBytes := nb, optimizeBegin := ob, optimizeEnd := oe, optimizeCount := oc, optimizeMsn := om }, fs)
      | _ => none
    else some (h, fs)
  | none => none

/-- ft-serialize.cc:303-318; the methods are `TOKU_ZLIB_METHOD` and `TOKU_QUICKLZ_METHOD`. -/
def Filling.compress (v : Nat) : Filling → Filling
  | some (h, fs) =>
    if 19 ≤ v then
      match fs with
      | .char c :: .ull m :: fs => some ({ h with compression := c, upgradeMsn := m }, fs)
      | _ => none
    else some ({ h with compression := if v < 18 then 8 else 9 }, fs)
  | none => none

/-- ft-serialize.cc:320-324. -/
def Filling.msn (v : Nat) : Filling → Filling
  | some (h, fs) =>
    if 21 ≤ v then
      match fs with
      | .ull m :: fs => some ({ h with maxMsn := m }, fs)
      | _ => none
    else some (h, fs)
  | none => none

/-- ft-serialize.cc:326-330. -/
def Filling.fanout (v : Nat) : Filling → Filling
  | some (h, fs) =>
    if 28 ≤ v then
      match fs with
      | .int n :: fs => some ({ h with fanout := n }, fs)
      | _ => none
    else some (h, fs)
  | none => none

/-- ft-serialize.cc:332-337. -/
def Filling.rows (v : Nat) : Filling → Filling
  | some (h, fs) =>
    if 29 ≤ v then
      match fs with
      | .ull n :: fs => some ({ h with logicalRows := n }, fs)
      | _ => none
    else some (h, fs)
  | none => none

/-- The values read after the place of the block table, in the order of `headerReads`, into the header: ft-serialize.cc:238-375, with
the defaults for what older versions do not store. -/
def ofRest (v buildId count lsn nodesize transAddr transSize : Nat) : List Field → Option Header
  | .ull root :: .int flags :: .int vo :: .int bo :: .ull tc :: .ull tm :: fs =>
    let h : Header := ⟨buildId, count, lsn, nodesize, transAddr, transSize, root, if v ≤ 13 then flags &&& (2 ^ 32 - 1 - valcmpBuiltin13) else flags, vo, bo, tc, tm,
      lsn, 128 * 1024, 0, 0, 0, 0, 0, 0, 0, 0, 2 ^ 62 - 1, 0, 16, 2 ^ 64 - 1⟩
    let r := Filling.rows v (Filling.fanout v (Filling.msn v (Filling.compress v (Filling.stats v (Filling.basement v (Filling.xid v (Filling.upgrade v (some (h, fs)))))))))
    r.map Prod.fst
  | _ => none

/-- The assertions at ft-serialize.cc:161-205; the addresses are signed there. -/
def tablePlaced (transAddr transSize : Nat) : Bool := 0 < transAddr ∧ transAddr < 2 ^ 63 ∧ 0 < transSize ∧ transSize < 2 ^ 63

/-- The values read, in the order of `headerReads`, into the header: ft-serialize.cc:147-375; `none` is a failed assertion. -/
def ofFields (v size : Nat) : List Field → Option Header
  | .literal m :: .networkInt ver :: .networkInt buildId :: .networkInt sz :: .literal order :: .ull count :: .ull lsn :: .int nodesize :: .ull transAddr :: .ull transSize :: fs =>
    if m = magic ∧ ver = v ∧ sz = size ∧ order = byteOrder then
      if tablePlaced transAddr transSize then ofRest v buildId count lsn nodesize transAddr transSize fs else none
    else none
  | _ => none

/-- `deserialize_ft_versioned`, ft-serialize.cc:147-375. -/
def parseHeader (v : Nat) (bytes : List Nat) : R (Except Err Header) := do
  let (fs, r) ← (⟨bytes, 0⟩ : Rd).fields (headerReads v)
  match ofFields v bytes.length fs with
  | none => .abort
  | some h => if r.ndone ≠ bytes.length then pure (.error .invalid) else pure (.ok h)

/-- The error reported when no header can be used, ft-serialize.cc:716-734. -/
def worst (e0 e1 : Option Err) : Option Err :=
  if e0 = some .tooNew ∨ e1 = some .tooNew then some .tooNew
  else if e0 = some .tooOld ∨ e1 = some .tooOld then some .tooOld
  else if e0 = some .badChecksum ∧ e1 = some .badChecksum then some .badChecksum
  else if e0 = some .noHeader ∨ e1 = some .noHeader then some .noHeader
  else match e0 with
    | some e => some e
    | none => e1

def errOf : Except Err Found → Option Err
  | .error e => some e
  | .ok _ => none

def acceptable (max : Nat) : Except Err Found → Option Found
  | .ok f => if f.lsn ≤ max then some f else none
  | .error _ => none

/-- The choice between the two headers in `toku_deserialize_ft_from`, ft-serialize.cc:690-790. -/
def choose (max : Nat) (f0 f1 : Except Err Found) : R (Except Err Found) :=
  let a0 := acceptable max f0
  let a1 := acceptable max f1
  if errOf f0 = some .tooNew ∨ errOf f1 = some .tooNew ∨ (a0 = none ∧ a1 = none) then
    match worst (errOf f0) (errOf f1) with
    | none => .abort
    | some e =>
      match f0, f1 with
      | .ok g0, .ok g1 => if max < g0.lsn ∧ max < g1.lsn then .abort else .ok (.error e)
      | _, _ => .ok (.error e)
  else
    match a0, a1 with
    | some g0, some g1 =>
      if g1.count < g0.count then
        if g0.count = g1.count + 1 ∧ g1.version ≤ g0.version then .ok (.ok g0) else .abort
      else
        if g1.count = g0.count + 1 ∧ g0.version ≤ g1.version then .ok (.ok g1) else .abort
    | some g0, none => .ok (.ok g0)
    | none, some g1 => .ok (.ok g1)
    | none, none => .abort

/-- `toku_deserialize_ft_from`, ft-serialize.cc:674-804. -/
def readHeader (max : Nat) (f : File) : R (Except Err Header) := do
  let f0 ← readSlot f.s0
  let f1 ← readSlot f.s1
  let c ← choose max f0 f1
  match c with
  | .error e => pure (.error e)
  | .ok g => parseHeader g.version g.bytes

end Verif.Ser
