import Verif.FullWrite.Model

/-!
# Complete writes
-/

namespace Verif.FullWrite

/-- `f'` is `f` with exactly these bytes written from `off` on. -/
def Wrote (f f' : File) (off : Nat) (bs : List Nat) : Prop :=
  (∀ i (h : i < bs.length), f' (off + i) = some bs[i]) ∧ ∀ p, p < off ∨ off + bs.length ≤ p → f' p = f p

/-- Answers after which a full write tries again. -/
def Good (stop : Bool) : Ans → Prop
  | .wrote n => 0 < n
  | .intr => True
  | .full _ => stop = false
  | .err _ => False

def isWrote : Ans → Bool
  | .wrote _ => true
  | _ => false

def isFull : Ans → Bool
  | .full _ => true
  | _ => false

/-- The error number of an answer. -/
def errno : Ans → Option Nat
  | .wrote _ => none
  | .intr => some 4
  | .full _ => some 28
  | .err e => some e

/-- The times of full disks go up and start after 1970. -/
def Clock (from_ : Nat) : List Ans → Prop
  | [] => True
  | .full now :: as => from_ ≤ now ∧ now < 2 ^ 63 ∧ Clock now as
  | _ :: as => Clock from_ as

/-- Reports are a minute apart. -/
def Apart : List Nat → Prop
  | [] => True
  | [_] => True
  | a :: b :: l => a + 60 ≤ b ∧ Apart (b :: l)

end Verif.FullWrite
