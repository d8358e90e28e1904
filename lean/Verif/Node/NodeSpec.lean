import Verif.Node.BnSpec
import Verif.Node.PivotSpec
import Verif.Ser.MsgBufSpec
/-!
What a node is: a few numbers, keys, children, and partitions, each of them rows or messages.
-/
namespace Verif.Node.NodeSpec
open Verif.Ser

inductive Part where
  | rows (l : List BnSpec.Row)
  | msgs (l : List MsgBufSpec.Slot)
deriving Repr, DecidableEq

/-- `children` are the numbers of the blocks of the children; a leaf has none. -/
structure Node where
  original : Nat
  msn : Nat
  flags : Nat
  height : Nat
  oldest : Nat
  keys : List PivotSpec.Key
  children : List Nat
  parts : List Part
deriving Repr, DecidableEq

/-- An upper bound of the size of a partition: for rows 4 bytes each, their keys and their records; for messages 31 bytes each, 8 for
each transaction, their keys and their values. -/
def Part.size : Part → Nat
  | .rows l => 23 + BnSpec.size l
  | .msgs l => 21 + (l.map fun x => 31 + 8 * x.m.xids.length + x.m.key.length + x.m.val.length).sum

/-- A node in the range of its C types, with one partition more than keys, and less than 512 MiB of keys and of partitions. -/
structure Ok (s : Node) : Prop where
  original : s.original < 2 ^ 32
  msn : s.msn < 2 ^ 64
  flags : s.flags < 2 ^ 32
  height : s.height < 2 ^ 31
  oldest : s.oldest < 2 ^ 64
  count : s.parts.length = s.keys.length + 1
  few : s.parts.length < 2 ^ 16
  keys : (s.keys.map List.length).sum < 2 ^ 29
  parts : (s.parts.map Part.size).sum < 2 ^ 29
  leaf : s.height = 0 → s.children = []
  inner : 0 < s.height → s.children.length = s.parts.length
  children : ∀ b ∈ s.children, b < 2 ^ 64

/-! ### How a node is made -/

/-- Calls that make a partition: on rows, with the object taken, or on a buffer. -/
inductive PartPlan where
  | leaf (ops : List BnSpec.Op) (o : Nat) (msn : Nat)
  | inner (ops : List MsgBufSpec.Op)
deriving Repr, DecidableEq

structure Plan where
  original : Nat
  build : Nat
  msn : Nat
  flags : Nat
  height : Nat
  oldest : Nat
  pivotOps : List PivotSpec.Op
  pivots : Nat
  children : List Nat
  parts : List PartPlan
deriving Repr, DecidableEq

/-- What a partition holds after those calls. -/
def PartPlan.meant (height : Nat) : PartPlan → Option Part
  | .leaf ops o _ => if height = 0 then (BnSpec.run [] ops).bind fun s => (s[o]?).map .rows else none
  | .inner ops => if 0 < height then some (.msgs (MsgBufSpec.run ops)) else none

def partsMeant (height : Nat) : List PartPlan → Option (List Part)
  | [] => some []
  | p :: ps => (p.meant height).bind fun x => (partsMeant height ps).map (x :: ·)

def Plan.meant (r : Plan) : Option Node :=
  ((PivotSpec.run [] r.pivotOps).bind fun s => s[r.pivots]?).bind fun ks =>
    (partsMeant r.height r.parts).map fun ps => ⟨r.original, r.msn, r.flags, r.height, r.oldest, ks, r.children, ps⟩

end Verif.Node.NodeSpec
