import Verif.Qlz.Model

namespace Verif.Qlz

/-- All are bytes. -/
def Bytes (s : List Nat) : Prop := ∀ b ∈ s, b < 256

/-- What a compressed text says: a byte, or "copy `len` bytes from `off` bytes before". -/
inductive Tok where
  | lit (b : Nat)
  | mat (off len : Nat)

/-- What it stands for, added to what is there already. -/
def expand : List Nat → List Tok → List Nat
  | dst, [] => dst
  | dst, .lit b :: ts => expand (dst ++ [b]) ts
  | dst, .mat off len :: ts => expand (copy dst off len) ts

def Tok.flag : Tok → Nat
  | .lit _ => 0
  | .mat _ _ => 1

def Tok.enc : Tok → List Nat
  | .lit b => [b]
  | .mat off len => encMatch off len

/-- The format: the rest of a control word with room for `n` more, its end marked by a 1, and the bytes that follow. -/
def fmt : List Tok → Nat → Nat × List Nat
  | [], n => (2 ^ n, [])
  | t :: ts, 0 => (1, le 4 (2 * (fmt ts 30).1 + t.flag) ++ (t.enc ++ (fmt ts 30).2))
  | t :: ts, n + 1 => (2 * (fmt ts n).1 + t.flag, t.enc ++ (fmt ts n).2)

/-- What the compressor may say of a text of `size` bytes of which `dst` is known: copies have an offset from 3 to 131070 and a
length from 3 to 255, begin at least 11 and end at least 4 bytes before the end. -/
def Valid (size : Nat) : List Nat → List Tok → Prop
  | dst, [] => dst.length = size
  | dst, .lit b :: ts => Valid size (dst ++ [b]) ts
  | dst, .mat off len :: ts => 3 ≤ off ∧ off ≤ dst.length ∧ off < 131071 ∧ 3 ≤ len ∧ len ≤ 255 ∧ dst.length + 11 ≤ size ∧
      dst.length + len + 4 ≤ size ∧ Valid size (copy dst off len) ts

end Verif.Qlz
