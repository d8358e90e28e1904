import Verif.Tree.Spec

/-! What `DB->hot_optimize` is for: bringing the messages sent so far into the leaves. -/
namespace Verif.Tree
variable {K R B : Type} [LinearOrder K]

/-- The message is about key `k`. -/
def Msg.about (m : Msg K B) (k : K) : Bool :=
  match m.kind with
  | .once k' => decide (k' = k)
  | .all => true
  | .nothing => false

/-- The messages about `k` that are in buffers, on the way from the root to the leaf where `k` belongs. -/
def waiting (k : K) : (h : Nat) → Node K R B h → List (Msg K B)
  | 0, _ => []
  | h + 1, n =>
    match whichChild (Inner.kids n).length (Inner.pivots n) k with
    | none => []
    | some i =>
      match (Inner.kids n)[i]? with
      | none => []
      | some (s, c) => (s.map (·.msg)).filter (·.about k) ++ waiting k h c

/-- All pivots of a subtree: where its nodes meet. -/
def pivotsBelow : (h : Nat) → Node K R B h → List K
  | 0, _ => []
  | h + 1, n => Inner.pivots n ++ ((Inner.kids n).map fun p => pivotsBelow h p.2).flatten

end Verif.Tree
