import Verif.Ser.Buf
import Verif.Blk.BlockTable
/-!
The block table on disk: ft/serialize/block_table.cc.
-/
namespace Verif.TrDisk
open Verif.Ser Verif.Blk

/-- `int64_t` to `uint64_t`. -/
def toU64 (i : Int) : Nat := (i % 2 ^ 64).toNat

/-- `uint64_t` to `int64_t`. -/
def ofU64 (n : Nat) : Int := if n < 2 ^ 63 then n else (n : Int) - 2 ^ 64

/-- The calls of the writers in `serialize_translation_to_wbuf`, block_table.cc:590-602; `wbuf_BLOCKNUM` and `wbuf_DISKOFF`,
block_table.h:313-315, 321-323. -/
def fieldsOf (t : Tr) : List Field :=
  .ull (toU64 t.smallest) :: .ull (toU64 t.head) :: (t.arr.take t.smallest).flatMap fun p => [.ull (toU64 p.u), .ull (toU64 p.size)]

/-- `roundup_to_multiple(512, n)`. -/
def roundup512 (n : Nat) : Nat := (n + 511) / 512 * 512

/-- `serialize_translation_to_wbuf`, block_table.cc:572-604, after the table has its place: the bytes that are written there.  The size
of the buffer is kept in 32 bits (wbuf.h:56, 67). -/
def serializeTr (t : Tr) : R (List Nat) :=
  if t.arr.length < t.smallest then .outside
  else do
    let size := roundup512 (sizeOnDisk t)
    let w ← (W.init (m32 size)).fields (fieldsOf t)
    let w ← w.int w.x.finish
    pure (w.out ++ List.replicate (size - sizeOnDisk t) 0)

/-- The loop at block_table.cc:923-926. -/
def readPairs : Nat → Rd → R (List Pair × Rd)
  | 0, r => .ok ([], r)
  | n + 1, r => do
    let (u, r) ← r.ull
    let (s, r) ← r.ull
    let (ps, r) ← readPairs n r
    pure (⟨ofU64 u, ofU64 s⟩ :: ps, r)

inductive Err where
  | badChecksum
deriving Repr, DecidableEq

/-- `_translation_deserialize_from_buffer`, block_table.cc:893-936, with the test of the number of bytes read of its caller,
ft-serialize.cc:211-221. -/
def deserializeTr (location size : Nat) (buf : List Nat) : R (Except Err Tr) :=
  if buf.length < size then .abort
  else if location = 0 then .abort
  else if memory (buf.take (size - 4)) ≠ le ((buf.drop (size - 4)).take 4) then .ok (.error .badChecksum)
  else do
    let (sm, r) ← (⟨buf.take (m32 (size - 4)), 0⟩ : Rd).ull
    if ofU64 sm < reservedBn then .abort
    else
      let (head, r) ← r.ull
      let (ps, _) ← readPairs sm r
      let t : Tr := ⟨ps, sm, ofU64 head⟩
      if sizeOnDisk t = size ∧ ps[bnTranslation]? = some ⟨location, size⟩ then pure (.ok t) else .abort

end Verif.TrDisk
