import Verif.Blk.HoleTree

/-!
The block allocator: ft/serialize/block_allocator.cc.  A failed `invariant` is `none`.

Simplifications.  `std::sort` on blocks is `List.mergeSort` by offset; `Validate` (a debug check of the invariant proved
here) and `NthBlockInLayoutOrder` (used by tests only) are not modelled.
-/
namespace Verif.Blk

/-- `BlockAllocator::BlockPair`, ft/serialize/block_allocator.h:79-87. -/
structure Block where
  off : Nat
  size : Nat
deriving Repr, DecidableEq

/-- `class BlockAllocator`, ft/serialize/block_allocator.h:175-187. -/
structure Alloc where
  reserve : Nat
  align : Nat
  nBlocks : Nat
  nBytes : Nat
  tree : T
deriving Repr, DecidableEq

/-- `BlockAllocator::CreateInternal`, ft/serialize/block_allocator.cc:58-69. -/
def createInternal (reserve align : Nat) : Option Alloc :=
  if 512 ≤ align ∧ align % 512 = 0 then some ⟨reserve, align, 0, reserve, .nil⟩ else none

/-- `BlockAllocator::Create`, ft/serialize/block_allocator.cc:71-75. -/
def create (reserve align : Nat) : Option Alloc :=
  (createInternal reserve align).bind fun s => (insert align s.tree ⟨reserve, maxVal⟩).map fun t => { s with tree := t }

/-- The loop of `CreateFromBlockPairs` over the sorted blocks, ft/serialize/block_allocator.cc:95-115. -/
def fillHoles (reserve align : Nat) : List Block → Nat → T → Option (Nat × T)
  | [], nb, t => some (nb, t)
  | p :: rest, nb, t =>
    if 0 < p.size ∧ reserve ≤ p.off ∧ p.off % align = 0 then
      let nb := (nb + p.size) % 2 ^ 64
      let foff := (p.off + p.size) % 2 ^ 64
      match rest with
      | [] => (insert align t ⟨foff, maxVal⟩).map (nb, ·)
      | q :: rest' =>
        if foff = maxVal ∧ q.off = maxVal then none
        else if foff ≤ q.off then
          (ouSub q.off foff).bind fun fsz =>
            if fsz = 0 then fillHoles reserve align (q :: rest') nb t
            else (insert align t ⟨foff, fsz⟩).bind fun t => fillHoles reserve align (q :: rest') nb t
        else none
    else none

/-- `BlockAllocator::CreateFromBlockPairs`, ft/serialize/block_allocator.cc:81-118.  With no blocks the code reads past
the end of an empty array. -/
def createFrom (reserve align : Nat) (blocks : List Block) : Option Alloc :=
  (createInternal reserve align).bind fun s =>
    match blocks.mergeSort (fun x y => decide (x.off ≤ y.off)) with
    | [] => none
    | p :: rest =>
      (if reserve < p.off then insert align s.tree ⟨reserve, p.off - reserve⟩ else some s.tree).bind fun t =>
        (fillHoles reserve align (p :: rest) s.nBytes t).map fun r => { s with nBlocks := blocks.length, nBytes := r.1, tree := r.2 }

/-- `BlockAllocator::AllocBlock`, ft/serialize/block_allocator.cc:128-138. -/
def allocBlock (s : Alloc) (size : Nat) : Option (Nat × Alloc) :=
  if size = 0 then none
  else (removeFit s.align size s.tree).map fun r =>
    (r.1, { s with nBytes := (s.nBytes + size) % 2 ^ 64, nBlocks := (s.nBlocks + 1) % 2 ^ 64, tree := r.2 })

/-- `BlockAllocator::FreeBlock`, ft/serialize/block_allocator.cc:146-152. -/
def freeBlock (s : Alloc) (off size : Nat) : Option Alloc :=
  (insert s.align s.tree ⟨off, size⟩).map fun t =>
    { s with nBytes := (s.nBytes + 2 ^ 64 - size) % 2 ^ 64, nBlocks := (s.nBlocks + 2 ^ 64 - 1) % 2 ^ 64, tree := t }

/-- `BlockAllocator::AllocatedLimit`, ft/serialize/block_allocator.cc:154-157. -/
def allocatedLimit (s : Alloc) : Option Nat := (maxNode s.tree).map (·.off)

/-- The holes in the order of `Tree::InOrderVisitor`, ft/serialize/rbtree_mhs.cc:71-85. -/
def inOrder : T → List Hole
  | .nil => []
  | .node _ h _ _ l r => inOrder l ++ h :: inOrder r

/-- The three fields of `TOKU_DB_FRAGMENTATION` about unused space. -/
structure Unused where
  bytes : Nat
  blocks : Nat
  largest : Nat
deriving Repr, DecidableEq

/-- `VisUnusedCollector`, ft/serialize/block_allocator.cc:190-208. -/
def visUnused (align : Nat) (rep : Unused) (h : Hole) : Option Unused :=
  (ouAdd h.off h.size).bind fun e =>
  (ouSub e (alignUp h.off align)).map fun fs =>
    if 0 < fs then ⟨(rep.bytes + fs) % 2 ^ 64, (rep.blocks + 1) % 2 ^ 64, max rep.largest fs⟩ else rep

/-- `BlockAllocator::UnusedStatistics`, ft/serialize/block_allocator.cc:212-221, after its check of the byte count. -/
def unusedStatistics (s : Alloc) : Option Unused := (inOrder s.tree).foldlM (visUnused s.align) ⟨0, 0, 0⟩

end Verif.Blk
