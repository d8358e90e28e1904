import Verif.Node.Disk
import Verif.Node.NodeSpec
import Verif.Node.PivotRun
import Verif.Node.BnRun
import Verif.Node.Le
/-!
Nodes of the model: how they are made, and their way to disk and back.
-/
namespace Verif.Node
open Verif.Ser NodeSpec

/-- A partition made by the calls of a plan. -/
def NodeSpec.PartPlan.make (cmp : List Nat → List Nat → Ordering) : PartPlan → R Verif.Node.Part
  | .leaf ops o msn => do
    let h ← Bn.run [] ops
    let b ← bnGet h o
    pure (.leaf b msn)
  | .inner ops => do
    let c ← MsgBufSpec.bufferAfter cmp ops
    pure (.inner c)

def makeParts (cmp : List Nat → List Nat → Ordering) : List PartPlan → R (List Verif.Node.Part)
  | [] => .ok []
  | p :: ps => do
    let x ← p.make cmp
    let xs ← makeParts cmp ps
    pure (x :: xs)

/-- A node made by the calls of a plan. -/
def NodeSpec.Plan.make (cmp : List Nat → List Nat → Ordering) (r : Plan) : R FNode := do
  let h ← Pk.run [] r.pivotOps
  let p ← pkGet h r.pivots
  let parts ← makeParts cmp r.parts
  pure ⟨⟨r.original, r.build, r.msn, r.flags, r.height, r.oldest, p, r.children⟩, parts⟩

/-- The rows that come are as they are stored, and the calls on buffers keep to what is asked of them. -/
def NodeSpec.PartPlan.Legal (cmp : List Nat → List Nat → Ordering) : PartPlan → Prop
  | .leaf ops _ _ => ∀ op ∈ ops, ∀ l ∈ BnSpec.records op, Stored l
  | .inner ops => MsgBufSpec.Legal cmp ops

/-- The partitions of a node in the cache, all of which have to be available (`toku_serialize_ftnode_to_memory` asserts it for a
node that is written: 642, `toku_ftnode_assert_fully_in_memory`). -/
def collectParts : List Slot → R (List Verif.Node.Part)
  | [] => .ok []
  | .avail p :: ss => do
    let ps ← collectParts ss
    pure (p :: ps)
  | _ :: _ => .abort

/-- One way of a node to disk and back: how it is compressed, the build that writes it, what lies before and after it in the file,
whether all of it is to be read at once, which partitions the reader wants, and which are fetched afterwards. -/
structure Trip where
  method : Method
  build : Nat
  pre : List Nat
  post : List Nat
  all : Bool
  wanted : Nat → Bool
  order : List Nat

/-- The node is written (`toku_serialize_ftnode_to_memory` and one write of those bytes at an offset: 814-868) and read again. -/
def FNode.trip (L : Lib) (n : FNode) (t : Trip) : R FNode := do
  let (_, _, block) ← n.toMemory L t.method t.build
  let file := t.pre ++ (block ++ t.post)
  match ← load L file t.pre.length block.length t.all t.wanted with
  | none => .abort
  | some c => do
    let c ← c.fetchAll L file t.pre.length t.order
    let parts ← collectParts c.slots
    pure ⟨c.f, parts⟩

def FNode.trips (L : Lib) (n : FNode) : List Trip → R FNode
  | [] => .ok n
  | t :: ts => do
    let n ← n.trip L t
    n.trips L ts

/-- What the cache does with a node that nobody changes. -/
inductive CacheOp where
  | fetch (i : Nat)
  | evict (keep : Bool) (i : Nat)
deriving Repr, DecidableEq

def CacheOp.index : CacheOp → Nat
  | .fetch i => i
  | .evict _ i => i

def Cached.run (L : Lib) (file : List Nat) (off : Nat) (c : Cached) : List CacheOp → R Cached
  | [] => .ok c
  | .fetch i :: ops => do
    let c ← c.fetch L file off i
    c.run L file off ops
  | .evict keep i :: ops => do
    let c ← c.evict L keep i
    c.run L file off ops

end Verif.Node
