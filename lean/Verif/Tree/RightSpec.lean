import Verif.Tree.Right
import Verif.Tree.Spec

/-!
What puts are meant to do: a plain put replaces the row; a put with DB_NOOVERWRITE is refused with DB_KEYEXIST if the
key has a row, and otherwise inserts it; one with DB_NOOVERWRITE_NO_ERROR leaves an existing row alone, which is what
the message it sends does to the row.
-/
namespace Verif.Tree
variable {K R B V : Type} [LinearOrder K]

/-- Has the key a row, after the messages of a history? -/
def present (sem : Sem K R B) (w : Puts V R B) (hist : List (Kind K × B)) (k : K) : Bool :=
  match rowAfter sem hist k with
  | none => false
  | some r => w.live r

/-- The messages one step adds to the history, and what it returns. -/
def expected (sem : Sem K R B) (w : Puts V R B) (hist : List (Kind K × B)) : DOp K B V → List (Kind K × B) × Ret
  | .put .over k v _ _ => ([(.once k, w.ins v)], .done)
  | .put .silent k v _ _ => ([(.once k, w.insNo v)], .done)
  | .put .unique k v _ _ => if present sem w hist k then ([], .keyExist) else ([(.once k, w.ins v)], .done)
  | .tree (.put kind body _) => ([(kind, body)], .done)
  | .tree _ => ([], .done)

/-- The same for a run, after a history. -/
def expectedRun (sem : Sem K R B) (w : Puts V R B) : List (Kind K × B) → List (DOp K B V) →
    List (Kind K × B) × List Ret
  | hist, [] => (hist, [])
  | hist, op :: ops =>
    let (more, r) := expected sem w hist op
    let (hist', rs) := expectedRun sem w (hist ++ more) ops
    (hist', r :: rs)

/-- The message buffers on the way from the root to the last leaf. -/
def buffersAbove : (h : Nat) → Node K R B h → List (Slot K B)
  | 0, _ => []
  | h + 1, n =>
    match n.kids[n.kids.length - 1]? with
    | none => []
    | some (s, c) => s :: buffersAbove h c

/-- A leaf whose first and whose last basement has a row, or that has just one basement. -/
def EndsFull (l : Leaf K R) : Prop :=
  l.parts.length = 1 ∨ (∃ p, l.parts[0]? = some p ∧ partRows p ≠ []) ∧
    ∃ p, l.parts[l.parts.length - 1]? = some p ∧ partRows p ≠ []

/-- The puts for which the shortcut does what it should: no DB_NOOVERWRITE_NO_ERROR, and the last leaf, in memory, has
no empty basement at its ends.  Nothing is asked when the shortcut is not tried. -/
def TameStep (s : Dict K R B) : DOp K B V → Prop
  | .put how _ _ _ stable => scoreThreshold ≤ s.score → stable = true →
      how ≠ .silent ∧ ∀ l, lastLeaf s.tree.h s.tree.root = some l → EndsFull (loadLeaf l)
  | .tree _ => True

/-- That holds for every step of a run. -/
def Tame (sem : Sem K R B) (w : Puts V R B) : Dict K R B → List (DOp K B V) → Prop
  | _, [] => True
  | s, op :: ops => TameStep s op ∧
    match dstep sem w s op with
    | .ok (s', _) => Tame sem w s' ops
    | .skip => Tame sem w s ops
    | .crash => True

end Verif.Tree
