import Verif.Blk.BlockTableSpec
import Verif.Blk.FitLemmas

/-!
Histories in which the dictionary never has more than 8189 block numbers: every number is smaller than the smallest disk
offset of a block, 8192.
-/
namespace Verif.Blk

inductive ReachSmall : World → Prop
  | created {bt d} : createBT = some bt → ReachSmall ⟨bt, d, [], [], []⟩
  | step {w w'} : ReachSmall w → Step w w' → w'.bt.cur.smallest ≤ hdr → ReachSmall w'

/-- Byte `n` of the file belongs to a block that one of the translations names. -/
def Named (s : BT) (n : Nat) : Prop := ∃ b k, Refs s b k ∧ k.off ≤ n ∧ n < k.off + k.size

end Verif.Blk
