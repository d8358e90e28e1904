import Verif.Node.Bn
import Verif.Node.BnSpec
/-!
Sequences of calls on the parts of leaves of the model.
-/
namespace Verif.Node
open Verif.Ser

/-- Rows written to a buffer of exactly the size reported (14 bytes of header, `get_disk_size`) and read back with that size; all
that was written must be read: ft/serialize/ft_node-serialize.cc:260-261, 1450-1458.  This object afterwards, and the new one. -/
def Bn.reload (b : Bn) : R (Bn × Bn) := do
  let (b', w) ← b.serialize (W.init (14 + b.diskSize))
  let (q, r) ← Bn.deserialize b.num ⟨w.out, 0⟩ w.out.length
  if w.out.length = 14 + b.diskSize ∧ r.ndone = w.out.length then pure (b', q) else .abort

def bnGet (h : List Bn) (o : Nat) : R Bn :=
  match h[o]? with
  | some b => .ok b
  | none => .outside

/-- The row a caller finds before it overwrites or deletes it (ft/node.cc:1490, 1538). -/
def Bn.row (b : Bn) (i : Nat) : R (List Nat × List Nat) := do
  match ← b.fetch i with
  | some r => .ok r
  | none => .outside

/-- The objects after one call: the calls of ft/bndata.cc.  The caller of an overwrite or a delete gives the length of the row's
key and the size of its record as it finds them (ft/ule.cc:208-217, 1022-1025). -/
def Bn.step (h : List Bn) : BnSpec.Op → R (List Bn)
  | .new => .ok (h ++ [Bn.empty])
  | .build rows => do let b ← Bn.setContents rows (rows.map fun r => r.2.length).sum; pure (h ++ [b])
  | .insert o i key l => do let b ← bnGet h o; let b ← b.insert i key l; pure (h.set o b)
  | .overwrite o i l => do
    let b ← bnGet h o
    let (k, old) ← b.row i
    let b ← b.overwrite i k.length old.length l
    pure (h.set o b)
  | .delete o i => do
    let b ← bnGet h o
    let (k, old) ← b.row i
    let b ← b.delete i k.length old.length
    pure (h.set o b)
  | .split o i => do
    let b ← bnGet h o
    let (b, q) ← b.split i
    pure (h.set o b ++ [q])
  | .copy o => do let b ← bnGet h o; pure (h ++ [b.clone])
  | .reload o => do
    let b ← bnGet h o
    let (b, q) ← b.reload
    pure (h.set o b ++ [q])

/-- The objects after a sequence of calls. -/
def Bn.run (h : List Bn) : List BnSpec.Op → R (List Bn)
  | [] => .ok h
  | op :: ops => do let h ← Bn.step h op; Bn.run h ops

end Verif.Node
