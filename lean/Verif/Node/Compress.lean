import Verif.Ser.Buf
/-!
Compression of the pieces of a node: ft/serialize/compress.cc.  The compression libraries themselves are parameters.
-/
namespace Verif.Node
open Verif.Ser

/-- `enum toku_compression_method`, buildheader/make_tdb.cc:667-677. -/
inductive Method where
  | none | snappy | zlib | quicklz | lzma | zlibRaw
  | default | fast | small
deriving Repr, DecidableEq

/-- The libraries: what each makes of bytes, what it makes of those again (`none` if it reports an error), and the largest size
it asks for.  quicklz reports no errors and has no call for its bound. -/
structure Lib where
  enc : Method → List Nat → List Nat
  dec : Method → List Nat → Option (List Nat)
  bound : Method → Nat → Nat

/-- `normalize_compression_method`, compress.cc:51-64. -/
def Method.normal : Method → Method
  | .default => .quicklz
  | .fast => .quicklz
  | .small => .lzma
  | m => m

/-- `toku_compress_bound`, compress.cc:66-88. -/
def compressBound (L : Lib) (m : Method) (n : Nat) : Nat :=
  match m.normal with
  | .none => n + 1
  | .lzma => 1 + L.bound .lzma n
  | .quicklz => n + 400 + 1
  | .zlib => L.bound .zlib n
  | .zlibRaw => 2 + L.bound .zlibRaw n
  | .snappy => 1 + L.bound .snappy n
  | _ => 0

/-- What a library wrote, in a buffer of the given size. -/
def into (size : Nat) (bs : List Nat) : R (List Nat) := if bs.length ≤ size then .ok bs else .outside

/-- `toku_compress`, compress.cc:90-184, into a buffer of size `size`. -/
def compress (L : Lib) (m : Method) (size : Nat) (src : List Nat) : R (List Nat) :=
  if src.length < 2 ^ 32 then
    match m.normal with
    | .none => into size (0 :: src)
    | .zlib => do
      let bs ← into size (L.enc .zlib src)
      match bs.head? with
      | some b => if b % 16 = 8 then .ok bs else .abort
      | none => .outside
    | .quicklz => if src.length = 0 then into size [9 + 3 * 16] else into size ((9 + 3 * 16) :: L.enc .quicklz src)
    | .lzma => if src.length = 0 then into size [10 + 2 * 16] else into size ((10 + 2 * 16) :: L.enc .lzma src)
    | .zlibRaw => into size ((11 + 5 * 16) :: (256 - 15) :: L.enc .zlibRaw src)
    | .snappy => into size (7 :: L.enc .snappy src)
    | _ => .abort
  else .abort

/-- Bytes a library gave for a buffer of size `size`: too many are outside, too few leave the rest of the buffer unset. -/
def exactly (size : Nat) : Option (List Nat) → R (List Nat)
  | some bs => if bs.length = size then .ok bs else .outside
  | none => .abort

/-- `toku_decompress`, compress.cc:186-257, into a buffer of size `size`. -/
def decompress (L : Lib) (size : Nat) : List Nat → R (List Nat)
  | [] => .abort
  | tag :: rest =>
    match tag % 16 with
    | 0 => exactly size (some rest)
    | 8 => exactly size (L.dec .zlib (tag :: rest))
    | 9 => if 0 < rest.length then exactly size (L.dec .quicklz rest) else if size = 0 then .ok [] else .abort
    | 10 => if 0 < rest.length then exactly size (L.dec .lzma rest) else if size = 0 then .ok [] else .abort
    | 11 => match rest with
      | [] => .outside
      | bits :: rest => if bits = 256 - 15 then exactly size (L.dec .zlibRaw rest) else .abort
    | 7 => exactly size (L.dec .snappy rest)
    | _ => .abort

end Verif.Node
