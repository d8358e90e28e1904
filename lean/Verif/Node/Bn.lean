import Verif.Ser.Buf
import Verif.Ule.Pack
/-!
The rows of one part of a leaf: ft/bndata.cc, with the memory pool util/mempool.cc and, of util/dmt.cc, the order of the
elements and the choice between its three forms (the tree inside is not modelled: an element is named by its position).

Rows are kept as (key, offset of the row's record in the pool).  `R.abort` is a failed `invariant`; `R.outside` is a read or
write of memory that was not allocated, or through a null pointer.
-/
namespace Verif.Node
open Verif.Ser

/-! ### The memory pool -/

/-- `struct mempool`, util/mempool.h:52-57: `mem` is the memory up to `free_offset`. -/
structure Mp where
  mem : List Nat
  size : Nat
  frag : Nat
deriving Repr, DecidableEq

/-- `toku_mempool_zero`, util/mempool.cc:59-62. -/
def Mp.zero : Mp := ⟨[], 0, 0⟩

/-- `toku_mempool_construct`, mempool.cc:78-90. -/
def Mp.construct (n : Nat) : Mp := if n = 0 then Mp.zero else ⟨[], n + n / 4, 0⟩

/-- `toku_mempool_realloc_larger`, mempool.cc:97-106. -/
def Mp.reallocLarger (mp : Mp) (n : Nat) : R Mp :=
  if n ≥ mp.mem.length then .ok { mp with size := n + n / 4 } else .abort

/-- `toku_mempool_get_used_size`, mempool.cc:137-139. -/
def Mp.used (mp : Mp) : Nat := mp.mem.length - mp.frag

/-- `toku_mempool_malloc`, mempool.cc:157-172, and the copy of `bs` to the memory given: the offset of that memory.  `none` is
the null pointer. -/
def Mp.malloc (mp : Mp) (bs : List Nat) : Option (Nat × Mp) :=
  if mp.mem.length + bs.length > mp.size then none else some (mp.mem.length, { mp with mem := mp.mem ++ bs })

/-- `toku_mempool_mfree`, mempool.cc:174-180. -/
def Mp.mfree (mp : Mp) (n : Nat) : R Mp :=
  if mp.frag + n ≤ mp.mem.length ∧ mp.frag + n ≤ mp.size then .ok { mp with frag := mp.frag + n } else .abort

/-- `toku_mempool_clone`, mempool.cc:191-197. -/
def Mp.clone (mp : Mp) : Mp := { mp with size := mp.mem.length }

/-! ### The ordered elements -/

/-- `class dmt`, util/dmt.h, of `klpair_struct` (ft/bndata.h:47-50): the elements in order, each a key and an offset; whether
it is an array; whether all elements have one size, and that size. -/
structure Dmt where
  vals : List (List Nat × Nat)
  isArray : Bool
  same : Bool
  len : Nat
deriving Repr, DecidableEq

/-- `get_size` of an element, ft/bndata.h:96-98. -/
def kl (v : List Nat × Nat) : Nat := 4 + v.1.length

/-- `create`, util/dmt.cc:48-56, and `clear`, 107-115. -/
def Dmt.empty : Dmt := ⟨[], true, true, 0⟩

/-- `insert_at`, dmt.cc:162-186, with `insert_at_array_end`, 190-204.  A position beyond the end is refused, which the callers
do not look at. -/
def Dmt.insertAt (d : Dmt) (v : List Nat × Nat) (idx : Nat) : Dmt :=
  if idx > d.vals.length then d
  else
    let same := d.same && (d.vals.length == 0 || kl v == d.len)
    if d.isArray && same && idx == d.vals.length then
      { d with vals := d.vals ++ [v], len := if d.vals.length = 0 then kl v else d.len }
    else
      { vals := d.vals.take idx ++ v :: d.vals.drop idx, isArray := false, same := same, len := if same then d.len else 0 }

/-- `delete_at`, dmt.cc:341-362. -/
def Dmt.deleteAt (d : Dmt) (idx : Nat) : Dmt :=
  if idx ≥ d.vals.length then d
  else if d.vals.length = 1 then Dmt.empty
  else { d with vals := d.vals.eraseIdx idx, isArray := false }

/-- `builder::append`, dmt.cc:1132-1162. -/
def Dmt.append (d : Dmt) (v : List Nat × Nat) : Dmt :=
  if d.same && (d.vals.length == 0 || kl v == d.len) then
    { d with vals := d.vals ++ [v], len := if d.vals.length = 0 then kl v else d.len }
  else { vals := d.vals ++ [v], isArray := false, same := false, len := 0 }

/-- `prepare_for_serialize`, dmt.cc:268-272. -/
def Dmt.prepare (d : Dmt) : Dmt := { d with isArray := true }

/-- The elements of packed memory, `fixed` bytes each: an offset, then the key. -/
def unpackKl (fixed : Nat) : Nat → List Nat → R (List (List Nat × Nat))
  | 0, _ => .ok []
  | n + 1, mem =>
    if fixed ≤ mem.length ∧ 4 ≤ fixed then do
      let vs ← unpackKl fixed n (mem.drop fixed)
      pure (((mem.take fixed).drop 4, le (mem.take 4)) :: vs)
    else .outside

/-- `create_from_sorted_memory_of_fixed_size_elements`, dmt.cc:67-98. -/
def Dmt.fromSorted (mem : List Nat) (n fixed : Nat) : R Dmt := do
  let vs ← unpackKl fixed n mem
  pure ⟨vs, true, true, fixed⟩

/-- `get_fixed_length`, dmt.cc:1078-1080. -/
def Dmt.fixedLength (d : Dmt) : Nat := if d.same then d.len else 0

/-- The memory of the elements of an array without padding, dmt.cc:1100-1114 (the offset in host order). -/
def klBytes (v : List Nat × Nat) : List Nat := store32 v.2 ++ v.1

/-- `serialize_values`, dmt.cc:1093-1115. -/
def Dmt.serializeValues (d : Dmt) (expected : Nat) (w : W) : R W :=
  if d.isArray ∧ d.same then
    if d.vals.length = 0 then .ok w
    else if (d.vals.flatMap klBytes).length = expected then w.literal0 (d.vals.flatMap klBytes) else .outside
  else .abort

/-! ### The records of rows -/

/-- `leafentry_memsize` and `leafentry_disksize`, ft/ule.cc:1272-1309, at the start of these bytes. -/
def leSize (bs : List Nat) : Option Nat := Ule.memsize (bs.map UInt8.ofNat)

/-- `leafentry_rest_memsize`, ft/ule.cc:1219-1270, at the start of these bytes. -/
def restSize (np nc : Nat) (bs : List Nat) : Option Nat := (Ule.restMemsize np nc (bs.map UInt8.ofNat)).map fun r => bs.length - r.2.length

/-- `class bn_data`, ft/bndata.h:118-333. -/
structure Bn where
  dmt : Dmt
  mp : Mp
  keysz : Nat
deriving Repr, DecidableEq

/-- `initialize_empty`, ft/bndata.cc:52-55. -/
def Bn.empty : Bn := ⟨Dmt.empty, Mp.zero, 0⟩

/-- `get_le_from_klpair`, bndata.cc:619-623, and the record there, as many bytes as `leafentry_memsize` says. -/
def leAt (mp : Mp) (off : Nat) : R (List Nat) :=
  match leSize (mp.mem.drop off) with
  | none => .outside
  | some n => if off + n ≤ mp.mem.length then .ok ((mp.mem.drop off).take n) else .outside

/-- `num_klpairs`, bndata.cc:574-576. -/
def Bn.num (b : Bn) : Nat := b.dmt.vals.length

/-- `fetch_klpair`, bndata.cc:636-646: `none` when there is no such row. -/
def Bn.fetch (b : Bn) (idx : Nat) : R (Option (List Nat × List Nat)) :=
  match b.dmt.vals[idx]? with
  | none => .ok none
  | some (k, off) => do let l ← leAt b.mp off; pure (some (k, l))

/-- `move_it`, bndata.cc:331-339, over the elements in order. -/
def moveAll (old : Mp) : List (List Nat × Nat) → Mp → R (List (List Nat × Nat) × Mp)
  | [], mp => .ok ([], mp)
  | (k, off) :: vs, mp => do
    let l ← leAt old off
    match mp.malloc l with
    | none => .outside
    | some (o, mp) => do
      let (vs, mp) ← moveAll old vs mp
      pure ((k, o) :: vs, mp)

/-- `dmt_compress_kvspace`, bndata.cc:343-371. -/
def Bn.compress (b : Bn) (added : Nat) (force : Bool) : R Bn :=
  let need := m32 (b.mp.used + added)
  if b.mp.frag > 0 ∨ force = true then do
    let (vs, mp) ← moveAll b.mp b.dmt.vals (Mp.construct (if force then need else m32 (need * 3) / 2))
    pure { b with dmt := { b.dmt with vals := vs }, mp := mp }
  else
    match (Mp.construct need).malloc b.mp.mem with
    | none => .outside
    | some (_, mp) => .ok { b with mp := mp }

/-- `mempool_malloc_and_update_dmt`, bndata.cc:377-385, and the copy of the record to the memory given. -/
def Bn.malloc (b : Bn) (l : List Nat) : R (Nat × Bn) :=
  match b.mp.malloc l with
  | some (o, mp) => .ok (o, { b with mp := mp })
  | none => do
    let b ← b.compress l.length false
    match b.mp.malloc l with
    | some (o, mp) => .ok (o, { b with mp := mp })
    | none => .outside

/-- `get_space_for_insert`, bndata.cc:417-436, with `add_key`, 57-59, and the packing of the record into the space. -/
def Bn.insert (b : Bn) (idx : Nat) (key l : List Nat) : R Bn := do
  let b : Bn := { b with keysz := b.keysz + (4 + key.length) }
  let (o, b) ← b.malloc l
  pure { b with dmt := b.dmt.insertAt (key, o) idx }

/-- `get_space_for_overwrite`, bndata.cc:387-415, and the packing of the record into the space. -/
def Bn.overwrite (b : Bn) (idx oldKeylen oldSize : Nat) (l : List Nat) : R Bn := do
  let (o, b) ← b.malloc l
  let mp ← b.mp.mfree oldSize
  match b.dmt.vals[idx]? with
  | none => .abort
  | some (k, _) =>
    if k.length = oldKeylen then .ok { b with dmt := { b.dmt with vals := b.dmt.vals.set idx (k, o) }, mp := mp } else .abort

/-- `delete_leafentry`, bndata.cc:313-322, with `remove_key`, 66-68. -/
def Bn.delete (b : Bn) (idx keylen oldSize : Nat) : R Bn := do
  let mp ← b.mp.mfree oldSize
  pure { dmt := b.dmt.deleteAt idx, mp := mp, keysz := b.keysz - (4 + keylen) }

/-- `copy_klpair`, bndata.cc:449-464, over elements in order, to one side of a split. -/
def copyAll (old : Mp) : List (List Nat × Nat) → Bn → R Bn
  | [], b => .ok b
  | (k, off) :: vs, b => do
    let l ← leAt old off
    match b.mp.malloc l with
    | none => .outside
    | some (o, mp) => copyAll old vs { dmt := b.dmt.append (k, o), mp := mp, keysz := b.keysz + (4 + k.length) }

/-- `split_klpairs`, bndata.cc:494-539: the left and the right part.  The key sizes are taken from the left part one by one
(467) and added to the side they go to. -/
def Bn.split (b : Bn) (at_ : Nat) : R (Bn × Bn) := do
  let n := b.mp.used
  let left ← copyAll b.mp (b.dmt.vals.take at_) ⟨Dmt.empty, Mp.construct n, b.keysz - (b.dmt.vals.map fun v => 4 + v.1.length).sum⟩
  let right ← copyAll b.mp (b.dmt.vals.drop at_) ⟨Dmt.empty, Mp.construct n, 0⟩
  let lmp ← left.mp.reallocLarger left.mp.used
  let rmp ← right.mp.reallocLarger right.mp.used
  pure ({ left with mp := lmp }, { right with mp := rmp })

/-- The loop of `set_contents_as_clone_of_sorted_array`, bndata.cc:608-615. -/
def setAll : List (List Nat × List Nat) → Bn → R Bn
  | [], b => .ok b
  | (k, l) :: rows, b =>
    match b.mp.malloc l with
    | none => .outside
    | some (o, mp) => setAll rows { dmt := b.dmt.append (k, o), mp := mp, keysz := b.keysz + (4 + k.length) }

/-- `set_contents_as_clone_of_sorted_array`, bndata.cc:585-617; the total of the record sizes is the caller's
(ft/node.cc:920). -/
def Bn.setContents (rows : List (List Nat × List Nat)) (totalLe : Nat) : R Bn :=
  setAll rows ⟨Dmt.empty, Mp.construct totalLe, 0⟩

/-- `clone`, bndata.cc:669-673. -/
def Bn.clone (b : Bn) : Bn := { b with mp := b.mp.clone }

/-- `get_disk_size`, bndata.cc:541-544. -/
def Bn.diskSize (b : Bn) : Nat := b.keysz + b.mp.used

/-! ### On disk -/

/-- `prepare_to_serialize`, bndata.cc:142-147. -/
def Bn.prepare (b : Bn) : R Bn :=
  if b.dmt.same then ({ b with dmt := b.dmt.prepare }).compress 0 true else .ok b

/-- `serialize_header`, bndata.cc:149-162. -/
def Bn.writeHeader (b : Bn) (w : W) : R W := do
  let w ← w.int0 b.keysz
  let w ← w.int0 b.mp.used
  let w ← w.int0 b.dmt.fixedLength
  let w ← w.char0 (if b.dmt.same then 1 else 0)
  w.char0 (if b.dmt.same then 1 else 0)

/-- `serialize_rest`, bndata.cc:164-174. -/
def Bn.writeRest (b : Bn) (w : W) : R W :=
  if b.dmt.same then do
    let w ← b.dmt.serializeValues b.keysz w
    w.literal0 (b.mp.mem.take b.mp.used)
  else .abort

/-- `wbufwriteleafentry`, bndata.cc:102-125. -/
def writeLe (key l : List Nat) (w : W) : R W := do
  let w ← w.char0 (l.headD 0)
  let w ← w.int0 key.length
  if l.headD 0 = 0 then do
    let n := le ((l.drop 1).take 4)
    let w ← w.int0 n
    let w ← w.literal0 key
    if 5 + n ≤ l.length then w.literal0 ((l.drop 5).take n) else .outside
  else do
    let w ← w.int0 (le ((l.drop 1).take 4))
    let w ← w.char0 (le ((l.drop 5).take 1))
    let w ← w.literal0 key
    w.literal0 ((l.drop 6).take (l.length - 6))

/-- `iterate<struct wbuf, wbufwriteleafentry>`, bndata.cc:134-135. -/
def writeAllLe (mp : Mp) : List (List Nat × Nat) → W → R W
  | [], w => .ok w
  | (k, off) :: vs, w => do
    let l ← leAt mp off
    let w ← writeLe k l w
    writeAllLe mp vs w

/-- `serialize_to_wbuf`, bndata.cc:127-138: the object afterwards, and the buffer. -/
def Bn.serialize (b : Bn) (w : W) : R (Bn × W) := do
  let b ← b.prepare
  let w ← b.writeHeader w
  let w ← if b.dmt.same then b.writeRest w else writeAllLe b.mp b.dmt.vals w
  pure (b, w)

/-- The records copied to a new pool, if there are any rows: bndata.cc:89-93. -/
def Mp.fill (mp : Mp) (n : Nat) (vals : List Nat) : R Mp :=
  if n > 0 then (match mp.malloc vals with | some (_, mp) => .ok mp | none => .outside) else .ok mp

/-- `initialize_from_separate_keys_and_vals`, bndata.cc:72-100, with `add_keys`, 61-64. -/
def Bn.readSeparate (n : Nat) (r : Rd) (dataSize keySize valSize fixed : Nat) (same : Bool) : R (Bn × Rd) :=
  let before := r.ndone
  if same then do
    let (keys, r) ← r.literal keySize
    let d ← Dmt.fromSorted keys n fixed
    let mp := Mp.construct valSize
    let (vals, r) ← r.literal valSize
    let mp ← mp.fill n vals
    if n * 4 ≤ n * fixed then
      if r.ndone - before = dataSize then .ok (⟨d, mp, n * fixed⟩, r) else .abort
    else .abort
  else .abort

/-- `n` bytes through a source pointer that is not checked. -/
def takeN (src : List Nat) (n : Nat) : R (List Nat × List Nat) :=
  if n ≤ src.length then .ok (src.take n, src.drop n) else .outside

/-- One turn of the loop of `deserialize_from_rbuf`, bndata.cc:223-273: the key, the record, and the bytes that follow. -/
def readOne (src : List Nat) : R (List Nat × List Nat × List Nat) := do
  let (t, src) ← takeN src 1
  let (kl, src) ← takeN src 4
  if le t = 0 then do
    let (vl, src) ← takeN src 4
    let (key, src) ← takeN src (le kl)
    let (v, src) ← takeN src (le vl)
    pure (key, t ++ (store32 (le vl) ++ v), src)
  else do
    let (nc, src) ← takeN src 4
    let (np, src) ← takeN src 1
    let (key, src) ← takeN src (le kl)
    match restSize (le np) (le nc) src with
    | none => .outside
    | some n => do
      let (rest, src) ← takeN src n
      pure (key, t ++ (store32 (le nc) ++ (np ++ rest)), src)

/-- The loop of `deserialize_from_rbuf`, bndata.cc:223-273, with the number of bytes allocated for records. -/
def readLoop (alloc : Nat) : Nat → List Nat → Bn → R (Bn × List Nat)
  | 0, src, b => .ok (b, src)
  | n + 1, src, b => do
    let (key, l, src) ← readOne src
    if b.mp.mem.length + l.length ≤ alloc then
      readLoop alloc n src { dmt := b.dmt.append (key, b.mp.mem.length), mp := { b.mp with mem := b.mp.mem ++ l }, keysz := b.keysz + (4 + key.length) }
    else .outside

/-- `deserialize_from_rbuf`, bndata.cc:177-297, of the current layout version. -/
def Bn.deserialize (n : Nat) (r : Rd) (dataSize : Nat) : R (Bn × Rd) := do
  let before := r.ndone
  let (keySize, r) ← r.int
  let (valSize, r) ← r.int
  let (fixed, r) ← r.int
  let (same, r) ← r.char
  let (sep, r) ← r.char
  if (same != 0) = (sep != 0) ∧ r.ndone - before = 14 then
    let dataSize := dataSize - 14
    if sep != 0 then
      if fixed ≥ 4 ∨ n = 0 then Bn.readSeparate n r dataSize keySize valSize fixed (same != 0) else .abort
    else do
      let (src, r) ← r.literal dataSize
      if dataSize = 0 ∧ n ≠ 0 then .abort
      else do
        let alloc := valSize + valSize / 4
        let (b, rest) ← readLoop alloc n src ⟨Dmt.empty, Mp.zero, 0⟩
        let b : Bn := { b with mp := { b.mp with size := alloc } }
        if src.length - rest.length = dataSize ∧ b.mp.mem.length + b.keysz = dataSize ∧ b.diskSize = dataSize then pure (b, r) else .abort
  else .abort

end Verif.Node
