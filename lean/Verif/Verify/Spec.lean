import Verif.Verify.Model

/-!
# Well-formed dictionaries
-/

namespace Verif.Verify

/-- All keys in the leaves, in the order of the leaves. -/
def allKeys (nodes : Nat → Node) : Nat → Nat → List Nat
  | 0, b => (nodes b).parts.flatMap (·.keys)
  | h + 1, b => (nodes b).parts.flatMap fun x => allKeys nodes h x.child

/-- The node `b'` of height `h'` is below (or is) the node `b` of height `h`. -/
inductive Below (nodes : Nat → Node) : Nat → Nat → Nat → Nat → Prop
  | self {h b} : Below nodes h b h b
  | child {h b h' b' x} : x ∈ (nodes b).parts → Below nodes h x.child h' b' → Below nodes (h + 1) b h' b'

/-- Nodes have one part more than pivots (the reader of nodes sees to it). -/
def Shaped (nodes : Nat → Node) : Prop := ∀ b, (nodes b).parts.length = (nodes b).pivots.length + 1

/-- `lo < k ≤ hi`. -/
def Within (lo hi : Option Nat) (k : Nat) : Prop := (∀ l, lo = some l → l < k) ∧ ∀ u, hi = some u → k ≤ u

/-- Looking up `k` from node `b` of height `h` passes node `b'` of height `h'`. -/
inductive OnPath (nodes : Nat → Node) (k : Nat) : Nat → Nat → Nat → Nat → Prop
  | self {h b} : OnPath nodes k h b h b
  | child {h b h' b' x} : route k (nodes b).pivots (nodes b).parts = some x → OnPath nodes k h x.child h' b' →
      OnPath nodes k (h + 1) b h' b'

/-- How many nodes are visited. -/
def count (nodes : Nat → Node) : Nat → Nat → Nat
  | 0, _ => 1
  | h + 1, b => ((nodes b).parts.map fun x => count nodes h x.child).sum + 1

/-- Ask the callback `n` times, until it answers something else than 0. -/
def ask : Nat → List Nat → V × List Nat
  | 0, cbs => (.ok, cbs)
  | _ + 1, [] => (.ok, [])
  | n + 1, c :: cbs => if c = 0 then ask n cbs else (.user c, cbs)

/-- Messages to one key. -/
def onePlace : Ty → Bool
  | .toAll => false
  | _ => true

/-- Messages to one key, but for updates. -/
def checked : Ty → Bool
  | .toAll | .update => false
  | _ => true

/-- The messages of a buffer: those of the kinds `T` are for keys of this child; numbers go up from 1 to the node's. -/
structure MsgsOk (T : Ty → Bool) (lo hi : Option Nat) (max : Nat) (ms : List Msg) : Prop where
  place : ∀ m ∈ ms, T m.ty = true → Within lo hi m.key
  order : ms.Pairwise (·.msn < ·.msn)
  range : ∀ m ∈ ms, 0 < m.msn ∧ m.msn ≤ max

/-- A well-formed tree between two keys: heights, pivots in order and between the keys, leaves in order and between their pivots,
messages (of the kinds `T`) in the buffer of the child they are for, numbers of messages. -/
def WF (T : Ty → Bool) (nodes : Nat → Node) (root : Nat) : Nat → Nat → Bool → Nat → Option Nat → Option Nat → Prop
  | 0, _, _, b, lo, hi =>
    (nodes b).height = 0 ∧ (nodes b).pivots.Pairwise (· < ·) ∧ (∀ p ∈ (nodes b).pivots, Within lo hi p) ∧
    ∀ l u x, (l, u, x) ∈ segs lo hi (nodes b).pivots (nodes b).parts →
      x.keys.Pairwise (· < ·) ∧ (∀ k ∈ x.keys, Within l u k) ∧ (x.keys ≠ [] → (nodes b).msn ≤ root)
  | h + 1, pmsn, above, b, lo, hi =>
    (nodes b).height = h + 1 ∧ (nodes b).pivots.Pairwise (· < ·) ∧ (∀ p ∈ (nodes b).pivots, Within lo hi p) ∧
    (above = true → (nodes b).msn ≤ pmsn) ∧
    ∀ l u x, (l, u, x) ∈ segs lo hi (nodes b).pivots (nodes b).parts →
      MsgsOk T l u (nodes b).msn x.msgs ∧
      WF T nodes root h (if x.msgs = [] then pmsn else (nodes b).msn) (above || !x.msgs.isEmpty) x.child l u

end Verif.Verify
