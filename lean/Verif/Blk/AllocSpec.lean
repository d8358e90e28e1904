import Verif.Blk.Allocator

/-!
What the block allocator is for, without its tree: the blocks in use after a history of calls, and which offset an
allocation must return.
-/
namespace Verif.Blk

/-- Two blocks share a byte. -/
def Block.overlap (x y : Block) : Prop := x.off < y.off + y.size ∧ y.off < x.off + x.size

/-- The sizes of the blocks, added up. -/
def total (L : List Block) : Nat := (L.map (·.size)).sum

/-- The space that must remain below the infinite offset. -/
def Room (r a : Nat) (L : List Block) (size : Nat) : Prop := r + a + size < maxVal ∧ ∀ b ∈ L, b.off + b.size + a + size < maxVal

/-- Histories: an allocator `s` and the blocks `L` in use, for a file that keeps `r` bytes at its beginning and aligns
blocks to `a`.  A dictionary is created empty, or opened with the blocks its translation names; then blocks are
allocated, and blocks in use are freed, in any order.  The file stays below 2^64 bytes (`Room`). -/
inductive Run (r a : Nat) : Alloc → List Block → Prop
  | created {s} : r < maxVal → create r a = some s → Run r a s []
  | opened {s bs} : r < maxVal → (∀ b ∈ bs, b.off + b.size < maxVal) → createFrom r a bs = some s → Run r a s bs
  | alloc {s s' L size x} : Run r a s L → Room r a L size → allocBlock s size = some (x, s') → Run r a s' (⟨x, size⟩ :: L)
  | free {s s' L b} : Run r a s L → b ∈ L → freeBlock s b.off b.size = some s' → Run r a s' (L.erase b)

/-- An offset at which a new block of `size` bytes may be put: aligned, after the reserved area, on no block in use. -/
def Fits (r a : Nat) (L : List Block) (size x : Nat) : Prop := x % a = 0 ∧ r ≤ x ∧ ∀ b ∈ L, ¬ b.overlap ⟨x, size⟩

/-- The first byte after the reserved area and every block in use. -/
def fileEnd (r : Nat) (L : List Block) : Nat := L.foldl (fun m b => max m (b.off + b.size)) r

/-- The largest block that fits in a hole of the list, allowing for alignment. -/
def largestFit (a : Nat) (hs : List Hole) : Nat := hs.foldr (fun h m => max (effSize a h) m) 0

/-- Every node's summary is the largest fit of its subtrees. -/
def SummariesExact (a : Nat) : T → Prop
  | .nil => True
  | .node _ _ lm rm l r => lm = largestFit a (inOrder l) ∧ rm = largestFit a (inOrder r) ∧ SummariesExact a l ∧ SummariesExact a r

/-- The number of nodes on the longest path. -/
def T.depth : T → Nat
  | .nil => 0
  | .node _ _ _ _ l r => 1 + max l.depth r.depth

end Verif.Blk
