import Verif.Fsize.Model

/-!
# Blocks keep what was written
-/

namespace Verif.Fsize

/-- A block in use and what was last written to it: where it is, its length, the value of its bytes. -/
abbrev A := List (Nat × Nat × Option Nat)

def A.step (a : A) : Ev → A
  | .alloc off size => (off, size, none) :: a
  | .write off v => a.map fun (o, s, w) => if o = off then (o, s, some v) else (o, s, w)
  | .release off => a.filter (·.1 != off)
  | _ => a

/-- The file holds what was written to the blocks. -/
def Holds (s : S) (a : A) : Prop :=
  ∀ o n v, (o, n, some v) ∈ a → ∀ p, o ≤ p → p < o + n → s.data p = some v

/-- A file that was just opened: the blocks in use are inside the file, apart from each other, and hold their values. -/
structure Start (s : S) (a : A) : Prop where
  lock : s.lock = .free
  shrinkers : s.shrinkers = []
  safe : s.safe = s.fsize
  inside : ∀ b ∈ s.blocks, b.phase = .ok ∧ b.off + b.size ≤ s.fsize
  apart : ∀ b ∈ s.blocks, ∀ c ∈ s.blocks, b.off < c.off + c.size → c.off < b.off + b.size → b = c
  sized : ∀ b ∈ s.blocks, 0 < b.size
  same : ∀ o n w, (o, n, w) ∈ a → ⟨o, n, .ok⟩ ∈ s.blocks
  holds : Holds s a

/-- The file is not asked to shrink while it is being shrunk. -/
def OneShrink (s : S) : List Ev → Prop
  | [] => True
  | e :: es =>
    (∀ b, e = .shrink b → (∀ l c, s.lock ≠ .cut l c) ∧ ∀ n, s.lock ≠ .wasCut n) ∧
    match step s e with
    | some (some s') => OneShrink s' es
    | _ => True

/-- A thread that waited before making the file shorter would compute no higher limit now: no block lies above it. -/
def Fresh (s : S) : List Ev → Prop
  | [] => True
  | e :: es =>
    (∀ l, e = .shrinkGrab l → l ∈ s.shrinkers → limit s.blocks ≤ l) ∧
    match step s e with
    | some (some s') => Fresh s' es
    | _ => True

end Verif.Fsize
