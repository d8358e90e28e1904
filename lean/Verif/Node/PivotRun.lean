import Verif.Node.Pivot
import Verif.Node.PivotSpec
/-!
Sequences of calls on pivot objects of the model.
-/
namespace Verif.Node
open Verif.Ser

/-- Pivots written to a buffer of the size the caller computes (ft/serialize/ft_node-serialize.cc:423-424) and read back; all
that was written must be read. -/
def Pk.reload (p : Pk) : R Pk := do
  let w ← p.serialize (W.init (p.serializedSize + p.num * 4))
  let (q, r) ← Pk.deserialize ⟨w.out, 0⟩ p.num
  if r.ndone = w.out.length then pure q else .abort

def pkGet (h : List Pk) (o : Nat) : R Pk :=
  match h[o]? with
  | some p => .ok p
  | none => .outside

/-- The objects after one call: the calls of ft/pivotkeys.cc. -/
def Pk.step (h : List Pk) : PivotSpec.Op → R (List Pk)
  | .create ks => do let p ← Pk.fromDbts ks; pure (h ++ [p])
  | .insert o i k => do let p ← pkGet h o; let p ← p.insertAt k i; pure (h.set o p)
  | .replace o i k => do let p ← pkGet h o; let p ← p.replaceAt k i; pure (h.set o p)
  | .delete o i => do let p ← pkGet h o; let p ← p.deleteAt i; pure (h.set o p)
  | .append o o' => do let p ← pkGet h o; let q ← pkGet h o'; let p ← p.append q; pure (h.set o p)
  | .split o i => do
    let p ← pkGet h o
    let (p, q) ← p.splitAt i
    pure (h.set o p ++ q.toList)
  | .copy o => do let p ← pkGet h o; let q ← p.clone; pure (h ++ [q])
  | .reload o => do let p ← pkGet h o; let q ← p.reload; pure (h ++ [q])

/-- The objects after a sequence of calls. -/
def Pk.run (h : List Pk) : List PivotSpec.Op → R (List Pk)
  | [] => .ok h
  | op :: ops => do let h ← Pk.step h op; Pk.run h ops

end Verif.Node
