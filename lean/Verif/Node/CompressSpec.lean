import Verif.Node.Compress
/-!
What is expected of the compression libraries.
-/
namespace Verif.Node

/-- The libraries give bytes back as they were, within the bounds they state; zlib starts its output with its own tag, and no
library makes nothing of something.  Texts of more than 2^32 - 401 bytes are left out, and the empty one of quicklz, which makes nothing of
them; that quicklz is as said here is proved in `Verif.Qlz` (C94). -/
structure Lib.Ok (L : Lib) : Prop where
  back : ∀ m src, (∀ b ∈ src, b < 256) → src.length ≤ 2 ^ 32 - 401 → (m = .quicklz → src ≠ []) → L.dec m (L.enc m src) = some src
  fits : ∀ m src, (∀ b ∈ src, b < 256) → (L.enc m src).length ≤ if m = .quicklz then src.length + 400 else L.bound m src.length
  bound : ∀ m n, L.bound m n ≤ 2 * n + 1000
  tag : ∀ src, ∃ b rest, L.enc .zlib src = b :: rest ∧ b % 16 = 8
  more : ∀ m src, src ≠ [] → src.length ≤ 2 ^ 32 - 401 → L.enc m src ≠ []

end Verif.Node
