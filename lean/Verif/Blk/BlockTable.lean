import Verif.Blk.Allocator

/-!
The block table: ft/serialize/block_table.cc, ft/serialize/block_table.h.  A failed `invariant`, or an access outside an
array, is `none`.

Simplifications.  `paranoid_invariant`s are not compiled into release builds and are left out.  Offsets, sizes and block
numbers are unbounded integers; callers keep the file below 2^63 bytes (`hasRoom`).  Every public function runs under
the table's mutex and is one step.  The type tags of translations, `ft_set_dirty`, and growing or shrinking the file
ahead of use (`_ensure_safe_write_unlocked`, `_maybe_truncate_file`) are left out; the limit used for shrinking is C29.
-/
namespace Verif.Blk

/-- `size_is_free`, ft/serialize/block_table.cc:66. -/
def sizeFree : Int := -1
/-- `diskoff_unused`, ft/serialize/block_table.cc:70. -/
def diskUnused : Int := -2
/-- `freelist_null`, ft/serialize/block_table.cc:63. -/
def flNull : Int := -1

/-- `RESERVED_BLOCKNUM_TRANSLATION`, `RESERVED_BLOCKNUM_DESCRIPTOR`, `RESERVED_BLOCKNUMS`, ft/serialize/block_table.h:58-63. -/
def bnTranslation : Nat := 1
def bnDescriptor : Nat := 2
def reservedBn : Nat := 3

/-- `BLOCK_ALLOCATOR_TOTAL_HEADER_RESERVE`, `BLOCK_ALLOCATOR_ALIGNMENT`, ft/serialize/block_allocator.h:64-77. -/
def hdr : Nat := 8192
def algn : Nat := 4096

/-- `struct block_translation_pair`, ft/serialize/block_table.h:180-189.  `u` is the union of the disk offset and the
next free block number. -/
structure Pair where
  u : Int
  size : Int
deriving Repr, DecidableEq

/-- `struct translation`, ft/serialize/block_table.h:201-217; `length_of_array` is the length of the list. -/
structure Tr where
  arr : List Pair
  smallest : Nat
  head : Int
deriving Repr, DecidableEq

/-- `class block_table`, ft/serialize/block_table.h:278-302; `inp = none` is a null `_inprogress.block_translation`. -/
structure BT where
  cur : Tr
  inp : Option Tr
  ckp : Tr
  alloc : Alloc
  skipped : Bool
deriving Repr, DecidableEq

/-- `_copy_translation`, ft/serialize/block_table.cc:238-267. -/
def copyTr (src : Tr) : Option Tr :=
  if src.smallest ≤ src.arr.length then
    if bnTranslation < src.smallest then
      some { src with arr := (src.arr.take src.smallest).set bnTranslation ⟨diskUnused, 0⟩ }
    else none
  else none

/-- `create`, ft/serialize/block_table.cc:101-117, 167-184. -/
def createBT : Option BT :=
  let ckp : Tr := ⟨List.replicate reservedBn ⟨diskUnused, 0⟩, reservedBn, flNull⟩
  (copyTr ckp).bind fun cur => (create hdr algn).map fun al => ⟨cur, none, ckp, al, false⟩

/-- The blocks a translation names: the loop of `create_from_buffer`, ft/serialize/block_table.cc:140-155. -/
def usedPairs : List Pair → Option (List Block)
  | [] => some []
  | p :: ps =>
    if 0 < p.size then
      if p.u = diskUnused then none else (usedPairs ps).map (⟨p.u.toNat, p.size.toNat⟩ :: ·)
    else usedPairs ps

/-- `create_from_buffer`, ft/serialize/block_table.cc:120-165, for the translation read from disk. -/
def openBT (ckp : Tr) : Option BT :=
  (copyTr ckp).bind fun cur =>
  (usedPairs (ckp.arr.take ckp.smallest)).bind fun bs =>
  (createFrom hdr algn bs).map fun al => ⟨cur, none, ckp, al, false⟩

/-- The free suffix: `_maybe_optimize_translation`, ft/serialize/block_table.cc:285-303. -/
def trimTo (arr : List Pair) : Nat → Nat
  | 0 => 0
  | n + 1 => if reservedBn ≤ n ∧ (arr[n]?.map (·.size)) = some sizeFree then trimTo arr n else n + 1

/-- Regenerating the free list, ft/serialize/block_table.cc:316-325, from block number `b`, for `k` numbers. -/
def regen : Nat → Nat → List Pair → Int → List Pair × Int
  | 0, _, arr, head => (arr, head)
  | k + 1, b, arr, head =>
    if (arr[b]?.map (·.size)) = some sizeFree then regen k (b + 1) (arr.set b ⟨head, sizeFree⟩) b
    else regen k (b + 1) arr head

/-- `_maybe_optimize_translation`, ft/serialize/block_table.cc:285-327. -/
def optimize (t : Tr) : Tr :=
  let n := trimTo t.arr t.smallest
  if n < t.smallest then
    let arr := if n < t.arr.length / 4 then t.arr.take (n * 2) else t.arr
    let r := regen (n - reservedBn) reservedBn arr flNull
    ⟨r.1, n, r.2⟩
  else t

/-- `note_start_checkpoint_unlocked`, ft/serialize/block_table.cc:328-340. -/
def noteStart (s : BT) : Option BT :=
  let cur := optimize s.cur
  if s.inp.isSome then none else (copyTr cur).map fun inp => { s with cur := cur, inp := some inp, skipped := false }

/-- `note_skipped_checkpoint`, ft/serialize/block_table.cc:342-347. -/
def noteSkipped (s : BT) : BT := { s with skipped := true }

/-- `_translation_prevents_freeing`, ft/serialize/block_table.cc:440-446. -/
def prevents (t : Option Tr) (b : Nat) (old : Pair) : Bool :=
  match t with
  | none => false
  | some t => decide (b < t.smallest) && decide ((t.arr[b]?.map (·.u)) = some old.u)

/-- The loop of `note_end_checkpoint`, ft/serialize/block_table.cc:383-393, from entry `i`. -/
def freeOld (inp cur : Tr) : Nat → List Pair → Alloc → Option Alloc
  | _, [], al => some al
  | i, p :: ps, al =>
    if 0 < p.size ∧ prevents (some inp) i p = false then
      if prevents (some cur) i p then none
      else (freeBlock al p.u.toNat p.size.toNat).bind fun al => freeOld inp cur (i + 1) ps al
    else freeOld inp cur (i + 1) ps al

/-- `note_end_checkpoint`, ft/serialize/block_table.cc:362-400. -/
def noteEnd (s : BT) : Option BT :=
  s.inp.bind fun inp =>
    if s.skipped then some { s with inp := none }
    else
      inp.arr[bnTranslation]?.bind fun p =>
        if 0 < p.size ∧ 0 < p.u then
          (freeOld inp s.cur 0 s.ckp.arr s.alloc).map fun al => { s with ckp := inp, inp := none, alloc := al }
        else none

/-- `_calculate_size_on_disk`, ft/serialize/block_table.cc:431-437. -/
def sizeOnDisk (t : Tr) : Nat := 8 + 8 + t.smallest * 16 + 4

/-- `_realloc_on_disk_internal`, ft/serialize/block_table.cc:448-484: the new table and the offset. -/
def realloc (s : BT) (b size : Nat) (forCk : Bool) : Option (BT × Int) :=
  s.cur.arr[b]?.bind fun old =>
    let cannot := (!forCk && prevents s.inp b old) || prevents (some s.ckp) b old
    (if !cannot && decide (old.u ≠ diskUnused) then freeBlock s.alloc old.u.toNat old.size.toNat else some s.alloc).bind fun al =>
    (if 0 < size then (allocBlock al size).map fun r => ((r.1 : Int), r.2) else some (diskUnused, al)).bind fun (off, al) =>
      let p : Pair := ⟨off, size⟩
      let cur := { s.cur with arr := s.cur.arr.set b p }
      if forCk then
        s.inp.bind fun inp =>
          if b < inp.arr.length then some ({ s with cur := cur, inp := some { inp with arr := inp.arr.set b p }, alloc := al }, off)
          else none
      else some ({ s with cur := cur, alloc := al }, off)

/-- `realloc_on_disk`, ft/serialize/block_table.cc:508-521. -/
def reallocOnDisk (s : BT) (b size : Nat) (forCk : Bool) : Option (BT × Int) :=
  if reservedBn ≤ b ∧ b < s.cur.smallest then realloc s b size forCk else none

/-- `_realloc_descriptor_on_disk_unlocked`, ft/serialize/block_table.cc:1017-1023. -/
def reallocDescriptor (s : BT) (size : Nat) : Option (BT × Int) := realloc s bnDescriptor size false

/-- `_alloc_inprogress_translation_on_disk_unlocked`, ft/serialize/block_table.cc:533-554: the new table and offset. -/
def allocTranslation (s : BT) : Option (BT × Nat) :=
  s.inp.bind fun inp =>
  (allocBlock s.alloc (sizeOnDisk inp)).bind fun r =>
    if bnTranslation < inp.arr.length then
      some ({ s with inp := some { inp with arr := inp.arr.set bnTranslation ⟨r.1, sizeOnDisk inp⟩ }, alloc := r.2 }, r.1)
    else none

/-- `_maybe_expand_translation`, ft/serialize/block_table.cc:641-653. -/
def expand (t : Tr) : Tr :=
  if t.arr.length ≤ t.smallest then
    { t with arr := t.arr ++ List.replicate (t.smallest * 2 - t.arr.length) ⟨flNull, sizeFree⟩ }
  else t

/-- `_allocate_blocknum_unlocked`, ft/serialize/block_table.cc:655-679, on the current translation. -/
def allocateBn (t : Tr) : Option (Nat × Tr) :=
  let fin (b : Nat) (t : Tr) : Option (Nat × Tr) :=
    if b < t.arr.length ∧ reservedBn ≤ b ∧ b < t.smallest then some (b, { t with arr := t.arr.set b ⟨diskUnused, 0⟩ }) else none
  if t.head = flNull then
    let t := expand t
    fin t.smallest { t with smallest := t.smallest + 1 }
  else if t.head < 0 then none
  else t.arr[t.head.toNat]?.bind fun p => fin t.head.toNat { t with head := p.u }

/-- `allocate_blocknum`, ft/serialize/block_table.cc:681-685. -/
def allocateBlocknum (s : BT) : Option (Nat × BT) := (allocateBn s.cur).map fun r => (r.1, { s with cur := r.2 })

/-- `_free_blocknum_in_translation`, ft/serialize/block_table.cc:687-695. -/
def freeIn (t : Tr) (b : Nat) : Option Tr :=
  if reservedBn ≤ b ∧ b < t.smallest ∧ b < t.arr.length then some { t with arr := t.arr.set b ⟨t.head, sizeFree⟩, head := b } else none

/-- `_free_blocknum_unlocked`, ft/serialize/block_table.cc:699-730. -/
def freeBlocknum (s : BT) (b : Nat) (forCk : Bool) : Option BT :=
  s.cur.arr[b]?.bind fun old =>
  (freeIn s.cur b).bind fun cur =>
  (if forCk then s.inp.bind fun inp => (freeIn inp b).map some else some s.inp).bind fun inp =>
    if 0 < old.size ∧ (prevents inp b old || prevents (some s.ckp) b old) = false then
      (freeBlock s.alloc old.u.toNat old.size.toNat).map fun al => { s with cur := cur, inp := inp, alloc := al }
    else some { s with cur := cur, inp := inp }

/-- `free_unused_blocknums`, ft/serialize/block_table.cc:745-759, from block number `i`, for `k` numbers. -/
def freeUnused (root : Nat) : Nat → Nat → Tr → Option Tr
  | 0, _, t => some t
  | k + 1, i, t =>
    if i = root then freeUnused root k (i + 1) t
    else
      t.arr[i]?.bind fun p =>
        if p.size = 0 then if p.u = diskUnused then (freeIn t i).bind fun t => freeUnused root k (i + 1) t else none
        else freeUnused root k (i + 1) t

/-- `free_unused_blocknums`, ft/serialize/block_table.cc:745-759. -/
def freeUnusedBlocknums (s : BT) (root : Nat) : Option BT :=
  (freeUnused root (s.cur.smallest - reservedBn) reservedBn s.cur).map fun t => { s with cur := t }

end Verif.Blk
