/-!
The x1764 checksum: util/x1764.cc.  Bytes are natural numbers below 256; 64-bit arithmetic is modulo 2^64; loads are
little-endian (the only byte order the code supports, portability/toku_htod.h:53-114).
-/
namespace Verif.Ser

/-- A little-endian load of the given bytes. -/
def le : List Nat → Nat
  | [] => 0
  | b :: bs => b + 256 * le bs

/-- Truncation to 64 bits. -/
def m64 (x : Nat) : Nat := x % 2 ^ 64

/-- The 32-bit result, util/x1764.cc:65, 95, 231: `~((c & 0xFFFFFFFF) ^ (c >> 32))`. -/
def fold32 (c : Nat) : Nat := 2 ^ 32 - 1 - ((c % 2 ^ 32) ^^^ (c / 2 ^ 32))

/-- The bytes left at the end, least significant first: the loops at util/x1764.cc:59-61, 90-92, 200-202, from byte `i`. -/
def orBytes : Nat → Nat → List Nat → Nat
  | _, input, [] => input
  | i, input, b :: bs => orBytes (i + 1) (input ||| m64 (b <<< (8 * i))) bs

/-- `toku_x1764_memory_simple`, util/x1764.cc:45-66: the loop over whole words; the sum and the bytes left. -/
def wordLoop : Nat → List Nat → Nat × List Nat
  | c, b0 :: b1 :: b2 :: b3 :: b4 :: b5 :: b6 :: b7 :: bs => wordLoop (m64 (c * 17 + le [b0, b1, b2, b3, b4, b5, b6, b7])) bs
  | c, bs => (c, bs)

/-- `toku_x1764_memory_simple`, util/x1764.cc:45-66. -/
def memorySimple (buf : List Nat) : Nat :=
  let r := wordLoop 0 buf
  fold32 (if 0 < r.2.length then m64 (r.1 * 17 + orBytes 0 0 r.2) else r.1)

/-- The four-way loop of `toku_x1764_memory`, util/x1764.cc:73-80: the four sums and the bytes left. -/
def quadLoop : Nat × Nat × Nat × Nat → List Nat → (Nat × Nat × Nat × Nat) × List Nat
  | (a, b, c, d), buf =>
    if _h : 32 ≤ buf.length then
      let k := 17 * 17 * 17 * 17
      quadLoop (m64 (a * k + le (buf.take 8)), m64 (b * k + le ((buf.drop 8).take 8)), m64 (c * k + le ((buf.drop 16).take 8)), m64 (d * k + le ((buf.drop 24).take 8)))
        (buf.drop 32)
    else ((a, b, c, d), buf)
termination_by _ buf => buf.length
decreasing_by simp only [List.length_drop]; omega

/-- `toku_x1764_memory`, util/x1764.cc:68-96. -/
def memory (buf : List Nat) : Nat :=
  let q := quadLoop (0, 0, 0, 0) buf
  let sum := m64 (q.1.1 * 17 * 17 * 17 + q.1.2.1 * 17 * 17 + q.1.2.2.1 * 17 + q.1.2.2.2)
  let r := wordLoop sum q.2
  fold32 (if 0 < r.2.length then m64 (r.1 * 17 + orBytes 0 0 r.2) else r.1)

/-- `struct x1764`, util/x1764.h:59-63. -/
structure X where
  sum : Nat
  input : Nat
  n : Nat
deriving Repr, DecidableEq

/-- `toku_x1764_init`, util/x1764.cc:99-103. -/
def X.init : X := ⟨0, 0, 0⟩

/-- The loop of `toku_x1764_add` when `n` bytes are waiting, util/x1764.cc:144-155: sum, input, bytes left. -/
def shiftLoop (n : Nat) : Nat → Nat → List Nat → Nat × Nat × List Nat
  | sum, input, b0 :: b1 :: b2 :: b3 :: b4 :: b5 :: b6 :: b7 :: bs =>
    let v := le [b0, b1, b2, b3, b4, b5, b6, b7]
    shiftLoop n (m64 (sum * 17 + (input ||| m64 (v <<< (8 * n))))) (v >>> (8 * (8 - n))) bs
  | sum, input, bs => (sum, input, bs)

/-- The four-byte step, util/x1764.cc:158-175: sum, input, waiting bytes, bytes left. -/
def step4 (sum input n : Nat) : List Nat → Nat × Nat × Nat × List Nat
  | b0 :: b1 :: b2 :: b3 :: bs =>
    let v := le [b0, b1, b2, b3]
    if n < 4 then (sum, input ||| m64 (v <<< (8 * n)), n + 4, bs)
    else (m64 (sum * 17 + (input ||| m64 (v <<< (8 * n)))), v >>> (8 * (8 - n)), n - 4, bs)
  | bs => (sum, input, n, bs)

/-- The byte loop, util/x1764.cc:177-182: input, waiting bytes, bytes left. -/
def byteLoop : Nat → Nat → List Nat → Nat × Nat × List Nat
  | input, n, [] => (input, n, [])
  | input, n, b :: bs => if n < 8 then byteLoop (input ||| m64 (b <<< (8 * n))) (n + 1) bs else (input, n, b :: bs)

/-- The end of `toku_x1764_add`, util/x1764.cc:193-223: whole words, then the bytes that wait. -/
def finishAdd (sum : Nat) (buf : List Nat) : X :=
  let r := wordLoop sum buf
  ⟨r.1, orBytes 0 0 r.2, r.2.length⟩

/-- `toku_x1764_add` for one, two and more bytes, util/x1764.cc:105-223. -/
def X.add (l : X) (buf : List Nat) : X :=
  match buf with
  | [b] =>
    let input := l.input ||| m64 (b <<< (8 * l.n))
    if l.n + 1 = 8 then ⟨m64 (l.sum * 17 + input), 0, 0⟩ else ⟨l.sum, input, l.n + 1⟩
  | [b0, b1] =>
    let v := le [b0, b1]
    if l.n = 7 then ⟨m64 (l.sum * 17 + (l.input ||| m64 (v <<< (8 * 7)))), v >>> 8, 1⟩
    else if l.n = 6 then ⟨m64 (l.sum * 17 + (l.input ||| m64 (v <<< (8 * 6)))), 0, 0⟩
    else ⟨l.sum, l.input ||| m64 (v <<< (8 * l.n)), l.n + 2⟩
  | _ =>
    if l.n = 0 then finishAdd l.sum buf
    else
      let s := shiftLoop l.n l.sum l.input buf
      let f := step4 s.1 s.2.1 l.n s.2.2
      let b := byteLoop f.2.1 f.2.2.1 f.2.2.2
      if b.2.1 < 8 then ⟨f.1, b.1, b.2.1⟩ else finishAdd (m64 (f.1 * 17 + b.1)) b.2.2

/-- `toku_x1764_finish`, util/x1764.cc:225-232. -/
def X.finish (l : X) : Nat := fold32 (if 0 < l.n then m64 (l.sum * 17 + l.input) else l.sum)

end Verif.Ser
