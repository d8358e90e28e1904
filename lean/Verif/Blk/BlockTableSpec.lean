import Verif.Blk.BlockTable

/-!
The world around one dictionary's block table: the bytes of its file, the writes handed to the operating system, the
block numbers its callers hold, and the checkpoint.  `Step` is everything that can happen, in any order, with a crash
possible at any moment.
-/
namespace Verif.Blk

/-- The disk block a translation gives to a block number, if any. -/
def Tr.block (t : Tr) (b : Nat) : Option Block :=
  match t.arr[b]? with
  | some p => if 0 < p.size then some ⟨p.u.toNat, p.size.toNat⟩ else none
  | none => none

/-- One of the translations gives block `k` to number `b`. -/
def Refs (s : BT) (b : Nat) (k : Block) : Prop :=
  s.cur.block b = some k ∨ s.ckp.block b = some k ∨ ∃ inp, s.inp = some inp ∧ inp.block b = some k

/-- A block number is in use: it is not on the free list. -/
def Tr.inUse (t : Tr) (b : Nat) : Prop := reservedBn ≤ b ∧ b < t.smallest ∧ ∃ p, t.arr[b]? = some p ∧ p.size ≠ sizeFree

instance (t : Tr) (b : Nat) : Decidable (t.inUse b) :=
  decidable_of_iff (reservedBn ≤ b ∧ b < t.smallest ∧ (t.arr[b]?.any fun p => decide (p.size ≠ sizeFree)) = true) <| by
    unfold Tr.inUse
    cases t.arr[b]? <;> simp

/-- The bytes a write to a block touches: it is padded to a multiple of 512 bytes
(ft/serialize/block_table.cc:571-573, ft/serialize/ft_node-serialize.cc:736, 805-822). -/
def Block.span (k : Block) (n : Nat) : Prop := k.off ≤ n ∧ n < (k.off + k.size + 511) / 512 * 512

/-- The file has room for a block of `size` bytes below 2^63. -/
def hasRoom (al : Alloc) (size : Nat) : Prop := ∃ lim, allocatedLimit al = some lim ∧ lim + algn + size < 2 ^ 63

/-- One dictionary: its block table, the bytes of its file, the writes in flight, the block numbers callers hold, and
the numbers whose nodes must still be written for the checkpoint in progress (the cachetable's pending bits). -/
structure World where
  bt : BT
  disk : Nat → Nat
  writes : List (Nat × Block)
  held : List Nat
  pending : List Nat

/-- What can happen.

Callers: a block number is written or freed only while a caller holds it (`held`) and no write to it is in flight
(the cachetable's pair lock and disk mutex, ft/cachetable/cachetable.cc); a node still pending for the checkpoint is
written or removed on the checkpoint's behalf.  A checkpoint serializes its translation, or is skipped, once nothing is
pending, and ends once the writes to its blocks are done. -/
inductive Step : World → World → Prop
  /-- `allocate_blocknum`. -/
  | newNumber {w b bt'} : allocateBlocknum w.bt = some (b, bt') → Step w { w with bt := bt', held := b :: w.held }
  /-- `realloc_on_disk`: a node is given a place for its new contents, and a write is issued. -/
  | writeNode {w b size bt' off} : b ∈ w.held → (∀ x ∈ w.writes, x.1 ≠ b) → 0 < size → hasRoom w.bt.alloc size →
      reallocOnDisk w.bt b size (w.pending.contains b) = some (bt', off) →
      Step w { w with bt := bt', writes := (b, ⟨off.toNat, size⟩) :: w.writes, pending := w.pending.filter (· ≠ b) }
  /-- `realloc_descriptor_on_disk`. -/
  | writeDescriptor {w size bt' off} : (∀ x ∈ w.writes, x.1 ≠ bnDescriptor) → 0 < size → hasRoom w.bt.alloc size →
      reallocDescriptor w.bt size = some (bt', off) →
      Step w { w with bt := bt', writes := (bnDescriptor, ⟨off.toNat, size⟩) :: w.writes }
  /-- `free_blocknum`. -/
  | freeNumber {w b bt'} : b ∈ w.held → (∀ x ∈ w.writes, x.1 ≠ b) → freeBlocknum w.bt b (w.pending.contains b) = some bt' →
      Step w { w with bt := bt', held := w.held.filter (· ≠ b), pending := w.pending.filter (· ≠ b) }
  /-- `free_unused_blocknums`: callers drop the numbers that were never written. -/
  | freeUnused {w root bt'} : w.pending = [] → freeUnusedBlocknums w.bt root = some bt' →
      Step w { w with bt := bt', held := w.held.filter (fun b => bt'.cur.inUse b) }
  /-- A write in flight reaches some of its bytes, with any contents. -/
  | disk {w x d} : x ∈ w.writes → (∀ n, ¬ x.2.span n → d n = w.disk n) → Step w { w with disk := d }
  /-- A write in flight is done. -/
  | writeDone {w x} : x ∈ w.writes → Step w { w with writes := w.writes.erase x }
  /-- The header area is written. -/
  | header {w d} : (∀ n, hdr ≤ n → d n = w.disk n) → Step w { w with disk := d }
  /-- A checkpoint begins. -/
  | beginCheckpoint {w P bt'} : (∀ b ∈ P, b ∈ w.held) → noteStart w.bt = some bt' → Step w { w with bt := bt', pending := P }
  /-- The checkpoint's translation is given a place, and a write is issued. -/
  | serialize {w bt' off inp} : w.pending = [] → w.bt.skipped = false → w.bt.inp = some inp → inp.block bnTranslation = none → hasRoom w.bt.alloc (sizeOnDisk inp) →
      (∀ x ∈ w.writes, x.1 ≠ bnTranslation) → allocTranslation w.bt = some (bt', off) →
      Step w { w with bt := bt', writes := (bnTranslation, ⟨off, sizeOnDisk inp⟩) :: w.writes }
  /-- The checkpoint is skipped, as nothing is dirty: no node has moved since the last one. -/
  | skip {w inp} : w.pending = [] → w.bt.inp = some inp → inp.block bnTranslation = none →
      (∀ b, b ≠ bnTranslation → inp.block b = w.bt.ckp.block b) → Step w { w with bt := noteSkipped w.bt }
  /-- The checkpoint ends. -/
  | endCheckpoint {w bt'} : w.pending = [] → (∀ x ∈ w.writes, ∀ inp, w.bt.inp = some inp → inp.block x.1 ≠ some x.2) →
      noteEnd w.bt = some bt' → Step w { w with bt := bt' }
  /-- The machine crashes, and the dictionary is opened again from the last completed checkpoint. -/
  | crash {w bt'} : openBT w.bt.ckp = some bt' →
      Step w { w with bt := bt', writes := [], held := (List.range bt'.cur.smallest).filter (fun b => bt'.cur.inUse b), pending := [] }

/-- The states a dictionary can be in. -/
inductive Reach : World → Prop
  | created {bt d} : createBT = some bt → Reach ⟨bt, d, [], [], []⟩
  | step {w w'} : Reach w → Step w w' → Reach w'

/-- Some steps, none of which completes a checkpoint: the checkpointed translation stays the same object. -/
inductive Steps : World → World → Prop
  | refl {w} : Steps w w
  | step {w w' w''} : Steps w w' → Step w' w'' → w''.bt.ckp = w.bt.ckp → Steps w w''

/-- The block numbers met from `h` on, following a free list. -/
def IsChain (arr : List Pair) : Int → List Nat → Prop
  | h, [] => h = flNull
  | h, x :: xs => h = x ∧ ∃ p, arr[x]? = some p ∧ IsChain arr p.u xs

/-- The free list of a translation is exact: following it meets every free number once, nothing else, and ends. -/
def Tr.FreeListExact (t : Tr) : Prop :=
  ∃ fl : List Nat, fl.Nodup ∧ IsChain t.arr t.head fl ∧ ∀ b, b ∈ fl ↔ reservedBn ≤ b ∧ b < t.smallest ∧ ∃ p, t.arr[b]? = some p ∧ p.size = sizeFree

end Verif.Blk
