import Verif.Ser.Buf
/-!
The on-disk layout of a sequence of fields, and which values a field may hold.
-/
namespace Verif.Ser.BufSpec
open Verif.Ser

/-- The `n` low-order base-256 digits of `v`, least significant first. -/
def digits : Nat → Nat → List Nat
  | 0, _ => []
  | n + 1, v => v % 256 :: digits n (v / 256)

/-- The bytes of one field: 32-bit integers least significant byte first, except network integers; 64-bit integers as their
high 32 bits followed by their low 32 bits; byte strings preceded by their length. -/
def bytes : Field → List Nat
  | .char b => [b]
  | .bool b => [if b then 1 else 0]
  | .networkInt v => (digits 4 v).reverse
  | .int v => digits 4 v
  | .ull v => digits 4 (v / 2 ^ 32) ++ digits 4 (v % 2 ^ 32)
  | .bytes bs => digits 4 bs.length ++ bs
  | .literal bs => bs

/-- The bytes of a sequence of fields. -/
def layout (fs : List Field) : List Nat := fs.flatMap bytes

/-- The value has the C type of the field. -/
def Valid : Field → Prop
  | .char b => b < 256
  | .bool _ => True
  | .networkInt v => v < 2 ^ 32
  | .int v => v < 2 ^ 32
  | .ull v => v < 2 ^ 64
  | .bytes bs => bs.length < 2 ^ 32 ∧ ∀ b ∈ bs, b < 256
  | .literal bs => bs.length < 2 ^ 32 ∧ ∀ b ∈ bs, b < 256

end Verif.Ser.BufSpec
