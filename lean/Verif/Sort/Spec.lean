/-! What sorting is asked for. -/
namespace Verif.Sort
variable {α : Type}

/-- A comparison function as the code expects it: negative, zero or positive; turned round it says the opposite, and it is
transitive.  Different elements may compare equal. -/
structure Comparator (cmp : α → α → Int) : Prop where
  turn : ∀ x y, cmp x y < 0 ↔ 0 < cmp y x
  trans : ∀ x y z, cmp x y ≤ 0 → cmp y z ≤ 0 → cmp x z ≤ 0

/-- No element compares greater than a later one. -/
def InOrder (cmp : α → α → Int) (a : List α) : Prop := a.Pairwise fun x y => cmp x y ≤ 0

end Verif.Sort
