import Verif.Tree.RangeSpec

/-! What `DB->get_key_after_bytes` is asked: from a start key, skip a number of bytes worth of rows, and say where that ends. -/
namespace Verif.Tree
variable {K R B : Type} [LinearOrder K]

/-- The sizes of some rows together. -/
def total (size : K → R → Nat) (rs : List (K × R)) : Nat := (rs.map fun x => size x.1 x.2).sum

/-- `rs` lists the rows from the start on, in order; no start is minus infinity. -/
def RowsFrom (row : K → Option R) (start : Option K) (rs : List (K × R)) : Prop :=
  rs.Pairwise (fun x y => x.1 < y.1) ∧ ∀ k r, (k, r) ∈ rs ↔ row k = some r ∧ ∀ a, start = some a → a ≤ k

/-- The comment of ft/ft-ops.cc:4482-4490: the rows of `[start, stop)` have `skipped` bytes together, no more than `skip`, and with
the row at `stop` they would have more; no `stop` means there are no more rows. -/
def ExactSkip (size : K → R → Nat) (row : K → Option R) (start : Option K) (skip : Nat) (stop : Option K) (skipped : Nat) : Prop :=
  ∃ pre rest, RowsFrom row start (pre ++ rest) ∧ total size pre = skipped ∧ skipped ≤ skip ∧
    ((stop = none ∧ rest = []) ∨ ∃ e r rest', stop = some e ∧ rest = (e, r) :: rest' ∧ skip < skipped + size e r)

/-- All basements of the subtree are in memory. -/
def InMemory : (h : Nat) → Node K R B h → Prop
  | 0, l => ∀ p ∈ Leaf.parts l, ∃ b, p.mem = some b
  | h + 1, n => ∀ p ∈ Inner.kids n, InMemory h p.2

/-- At every inner node the share of each child in `bytes` is at least `skip`. -/
def LargeShares (skip : Nat) : (h : Nat) → (bytes : Nat) → Node K R B h → Prop
  | 0, _, _ => True
  | h + 1, bytes, n => skip ≤ bytes / (Inner.kids n).length ∧ ∀ p ∈ Inner.kids n, LargeShares skip h (bytes / (Inner.kids n).length) p.2

end Verif.Tree
