import Verif.Tree.OptSpec

/-! What `DB->keys_range64` is asked: how many keys lie below, at, between, at and above two given keys. -/
namespace Verif.Tree
variable {K R B : Type} [LinearOrder K]

/-- `k` lies strictly between the two ends; a missing end is minus or plus infinity. -/
def Between (left right : Option K) (k : K) : Prop := (∀ a, left = some a → a < k) ∧ (∀ b, right = some b → k < b)

/-- `k` lies between the two ends or is one of them. -/
def Spanned (left right : Option K) (k : K) : Prop := (∀ a, left = some a → a ≤ k) ∧ (∀ b, right = some b → k ≤ b)

/-- `ks` lists, in order and without repetition, the keys with property `P`. -/
def Lists (P : K → Prop) (ks : List K) : Prop := ks.Pairwise (· < ·) ∧ ∀ k, k ∈ ks ↔ P k

/-- `n` is the number of keys with property `P`. -/
def Count (P : K → Prop) (n : Nat) : Prop := ∃ ks, Lists P ks ∧ ks.length = n

/-- `n` says whether the key at an end is there: 1 if it is, 0 if it is not or there is no end. -/
def AtEnd (P : K → Prop) (e : Option K) (n : Nat) : Prop :=
  (n = 1 ∧ ∃ k, e = some k ∧ P k) ∨ (n = 0 ∧ ∀ k, e = some k → ¬ P k)

/-- No basement of the subtree, in memory or on disk, has more than `S` rows. -/
def SmallBasements (S : Nat) : (h : Nat) → Node K R B h → Prop
  | 0, l => ∀ p ∈ Leaf.parts l, p.disk.length ≤ S ∧ ∀ b, p.mem = some b → b.rows.length ≤ S
  | h + 1, n => ∀ p ∈ Inner.kids n, SmallBasements S h p.2

end Verif.Tree
