import Verif.Codec.Bytes

/-!
The buffer of key ranges a transaction holds locks on: `range_buffer` (locktree/range_buffer.cc) over its memory
arena (util/memarena.cc), byte by byte.

Simplifications.  The arena's reallocation of its chunk table and `malloc` never fail.  A chunk is its capacity and
the bytes written so far.  `sizeof(record_header)` is 8 (locktree/range_buffer.h:87, a static assertion); bools are one byte and
`uint16_t` is little-endian.  `none` is an assertion failure or a read of memory that was never written.
-/
namespace Verif.Lt
open Verif.Codec

/-- A lock endpoint: a key, or one of the two infinite `DBT`s (util/dbt.cc:263-275). -/
inductive Pt where
  | negInf
  | key (k : Bytes)
  | posInf
deriving Repr, DecidableEq

/-- `dbt->size`; the infinite `DBT`s are zero-initialised (util/dbt.cc:263-271). -/
def Pt.size : Pt → Nat
  | .key k => k.length
  | _ => 0

def Pt.isInf : Pt → Bool
  | .key _ => false
  | _ => true

/-- The bytes copied for an endpoint. -/
def Pt.bytes : Pt → Bytes
  | .key k => k
  | _ => []

/-- `toku_dbt_equals`, util/dbt.cc:298-305: infinite endpoints by identity, keys by *pointer* and size.
`samePtr` says whether the two `DBT`s point at the same memory. -/
def dbtEquals (l r : Pt) (samePtr : Bool) : Bool :=
  match l, r with
  | .negInf, .negInf => true
  | .posInf, .posInf => true
  | .key a, .key b => samePtr && a == b
  | _, _ => false

/-! ### The arena -/

/-- `arena_chunk`, util/memarena.h: capacity and the bytes in use. -/
structure Chunk where
  size : Nat
  data : Bytes
deriving Repr, DecidableEq

/-- `memarena`, util/memarena.h.  `cur = none` is a null buffer; the current chunk's recorded size is then
`0` (`create(0)`, util/memarena.cc:59-70). -/
structure Arena where
  cur : Option Chunk
  others : List Chunk
deriving Repr, DecidableEq

/-- `round_to_page`, util/memarena.cc:87-94, for a positive size. -/
def roundToPage (size : Nat) : Nat := 4096 + (size - 1) / 4096 * 4096

/-- `MEMARENA_MAX_CHUNK_SIZE`, util/memarena.cc:96. -/
def maxChunk : Nat := 64 * 1024 * 1024

/-- `malloc_from_arena` (util/memarena.cc:98-130) of as many bytes as `bs` has, then writing them there. -/
def Arena.put (a : Arena) (bs : Bytes) : Arena :=
  let fresh (old : Nat) : Chunk :=
    let n := min maxChunk (2 * old)
    let n := if n < bs.length then bs.length else n
    ⟨roundToPage n, bs⟩
  match a.cur with
  | none => { a with cur := some (fresh 0) }
  | some c =>
    if c.size < c.data.length + bs.length then { cur := some (fresh c.size), others := a.others ++ [c] }
    else { a with cur := some { c with data := c.data ++ bs } }

/-- `total_size_in_use`, util/memarena.cc:157-159: full capacity of the other chunks plus the used part of the
current one. -/
def Arena.inUse (a : Arena) : Nat :=
  (a.others.map (·.size)).sum + (match a.cur with | none => 0 | some c => c.data.length)

/-! ### Records -/

/-- One header byte per flag. -/
def flag (b : Bool) : UInt8 := if b then 1 else 0

/-- `record_header::init` and its bytes, locktree/range_buffer.h:73-85 and range_buffer.cc:70-83, for a range.  The sizes
are `uint16_t`: a key of 65536 bytes passes the size check and is stored as 0. -/
def rangeHeader (l r : Pt) : Bytes :=
  [flag (l = .negInf), flag (l = .posInf), flag (r = .posInf), flag (r = .negInf)] ++
    le 2 (l.size % 65536) ++ le 2 (r.size % 65536)

/-- The same for a point (`right_key` null): the right key takes the left one's infinity flags and size 0. -/
def pointHeader (k : Pt) : Bytes :=
  [flag (k = .negInf), flag (k = .posInf), flag (k = .posInf), flag (k = .negInf)] ++
    le 2 (k.size % 65536) ++ le 2 0

/-- `append_range`, range_buffer.cc:219-240 and `append_point`, 242-257: the bytes of one record. -/
def record (l r : Pt) (samePtr : Bool) : Bytes :=
  if dbtEquals l r samePtr then pointHeader l ++ l.bytes
  else rangeHeader l r ++ l.bytes ++ r.bytes

/-- `range_buffer`, locktree/range_buffer.h. -/
structure RangeBuffer where
  arena : Arena
  numRanges : Nat
deriving Repr, DecidableEq

/-- `range_buffer::create`, range_buffer.cc:183-188. -/
def RangeBuffer.create : RangeBuffer := ⟨⟨none, []⟩, 0⟩

/-- `range_buffer::append`, range_buffer.cc:190-201 with `MAX_KEY_SIZE` = 2^16 (range_buffer.h:71). -/
def RangeBuffer.append (b : RangeBuffer) (l r : Pt) (samePtr : Bool) : Option RangeBuffer :=
  if l.size ≤ 65536 ∧ (dbtEquals l r samePtr ∨ r.size ≤ 65536) then
    some ⟨b.arena.put (record l r samePtr), b.numRanges + 1⟩
  else none

/-- `range_buffer::total_memory_size`, range_buffer.cc:207-209. -/
def RangeBuffer.memory (b : RangeBuffer) : Nat := b.arena.inUse

/-- `range_buffer::is_empty`, range_buffer.cc:203-205. -/
def RangeBuffer.isEmpty (b : RangeBuffer) : Bool := b.memory = 0

/-- `iterator::record`: the key `DBT`s.  `none` is a `DBT` never filled in.  The caller declares one record
object and reuses it for every step of the iteration, so a `DBT` that is not filled in keeps its previous value. -/
structure Dbts where
  left : Option Bytes
  right : Option Bytes
deriving Repr, DecidableEq

/-- `record::get_left_key`/`get_right_key`, range_buffer.cc:85-103. -/
def endpoint (neg pos : UInt8) (dbt : Option Bytes) : Option Pt :=
  if neg ≠ 0 then some .negInf else if pos ≠ 0 then some .posInf else dbt.map .key

/-- `record::deserialize`, `record::size`, range_buffer.cc:105-131: fills the record from the bytes at the current
position; gives the pair of endpoints, the updated record and the record's size. -/
def deserialize (prev : Dbts) (buf : Bytes) : Option ((Pt × Pt) × Dbts × Nat) :=
  match buf with
  | ln :: lp :: rp :: rn :: s0 :: s1 :: s2 :: s3 :: rest =>
    let ls := ofLe [s0, s1]
    let rs := ofLe [s2, s3]
    let linf := ln ≠ 0 ∨ lp ≠ 0
    let rinf := rn ≠ 0 ∨ rp ≠ 0
    if ¬ linf ∧ rest.length < ls then none
    else
      let left := if linf then prev.left else some (rest.take ls)
      let rest' := if linf then rest else rest.drop ls
      if ¬ rinf ∧ rs ≠ 0 ∧ rest'.length < rs then none
      else
        let right := if rinf then prev.right else if rs = 0 then left else some (rest'.take rs)
        (endpoint ln lp left).bind fun l => (endpoint rn rp right).map fun r =>
          ((l, r), ⟨left, right⟩, 8 + ls + rs)
  | _ => none

/-- The loop `while (iter.current(&rec)) { ..; iter.next(); }` within one chunk, range_buffer.cc:153-181. -/
def readChunk (prev : Dbts) (buf : Bytes) : Option (List (Pt × Pt) × Dbts) :=
  match buf with
  | [] => some ([], prev)
  | b :: bs =>
    match deserialize prev (b :: bs) with
    | none => none
    | some (pr, prev', n) =>
      if n = 0 then none
      else (readChunk prev' ((b :: bs).drop n)).map fun q => (pr :: q.1, q.2)
termination_by buf.length
decreasing_by simp only [List.length_drop, List.length_cons]; omega

/-- The iterator goes on to the next chunk when one is exhausted (range_buffer.cc:165-181); it stops at a chunk
with no bytes in use. -/
def readChunks (prev : Dbts) : List Chunk → Option (List (Pt × Pt))
  | [] => some []
  | c :: cs =>
    if c.data = [] then some []
    else
      match readChunk prev c.data with
      | none => none
      | some (rs, prev') => (readChunks prev' cs).map (rs ++ ·)

/-- A full iteration, range_buffer.cc:133-181: `memarena::chunk_iterator` starts with the *current* chunk and then
visits the other chunks oldest first (util/memarena.cc:170-192). -/
def RangeBuffer.ranges (b : RangeBuffer) : Option (List (Pt × Pt)) :=
  match b.arena.cur with
  | none => some []
  | some c => readChunks ⟨none, none⟩ (c :: b.arena.others)

end Verif.Lt
