/-!
Model of the compression library in the source, ft/serialize/quicklz.cc at level 3 without streaming (ft/serialize/quicklz.h:59-63), the method used for
nodes by default: the search for earlier occurrences, the formats, the control words, the fallback to storing, the header, and the
decompressor.  Bytes are natural numbers; positions count from the start of the source or destination.
-/

namespace Verif.Qlz

/-- `fast_write`, quicklz.cc:168-211: the low `n` bytes, least significant first.  (On x86 four bytes are written for three; the fourth is written over later.) -/
def le : Nat → Nat → List Nat
  | 0, _ => []
  | n + 1, f => f % 256 :: le n (f / 256)

/-- `fast_read` of `n` bytes, quicklz.cc:136-155; behind the end of the list there are zeros (in the code whatever is in memory there:
the places that use these bytes mask them out). -/
def rd : Nat → List Nat → Nat
  | 0, _ => 0
  | n + 1, l => l.headD 0 + 256 * rd n l.tail

/-- A byte of the source. -/
def at1 (s : List Nat) (p : Nat) : Nat := s.getD p 0

/-- `fast_read(src, 3) & 0xffffff`. -/
def at3 (s : List Nat) (p : Nat) : Nat := at1 s p + 256 * at1 s (p + 1) + 65536 * at1 s (p + 2)

/-- `hash_func`, quicklz.cc:127-134. -/
def hash (i : Nat) : Nat := ((i / 4096) ^^^ i) % 4096

/-- `qlz_state_compress`, quicklz.h:128-137: 16 positions for every hash value, and a counter of one byte. -/
structure Tab where
  cnt : Nat → Nat
  off : Nat → Nat → Nat

/-- quicklz.cc:456-460, 470-472: note the position. -/
def Tab.put (t : Tab) (h p : Nat) : Tab where
  cnt := fun i => if i = h then (t.cnt h + 1) % 256 else t.cnt i
  off := fun i k => if i = h ∧ k = t.cnt h % 16 then p else t.off i k

/-- The loops that lengthen a match, quicklz.cc:424-425, 443-444; at most `fuel` times (255 is the most that is possible). -/
def extend (s : List Nat) (o p lim : Nat) : Nat → Nat → Nat
  | 0, m => m
  | fuel + 1, m => if at1 s (o + m) = at1 s (p + m) ∧ m < lim then extend s o p lim fuel (m + 1) else m

/-- The oldest entry, quicklz.cc:417-431: position and length. -/
def first (s : List Nat) (t : Tab) (p h lim : Nat) : Nat × Nat :=
  let o := t.off h 0
  if o + 2 < p ∧ 0 < t.cnt h ∧ at3 s o = at3 s p then
    (o, if at1 s (o + 3) = at1 s (p + 3) then extend s o p lim 255 4 else 3)
  else (o, 0)

/-- One of the other entries, quicklz.cc:434-454. -/
def better (s : List Nat) (t : Tab) (p h lim : Nat) (b : Nat × Nat) (k : Nat) : Nat × Nat :=
  let o := t.off h k
  if at3 s o = at3 s p ∧ o + 2 < p then
    let m := extend s o p lim 255 3
    if b.2 < m ∨ (m = b.2 ∧ b.1 < o) then (o, m) else b
  else b

/-- The search, quicklz.cc:410-455.  `last_byte - UNCOMPRESSED_END - src + 1`, at most 255, bounds the length. -/
def search (s : List Nat) (t : Tab) (p h : Nat) : Nat × Nat :=
  let lim := min 255 (s.length - 4 - p)
  (List.range' 1 15).foldl (fun b k => if k < t.cnt h then better s t p h lim b k else b) (first s t p h lim)

/-- The five formats of a match, quicklz.cc:478-508.  (The parts do not overlap: `|` is `+`.) -/
def encMatch (off len : Nat) : List Nat :=
  if len = 3 ∧ off ≤ 63 then le 1 (off * 4)
  else if len = 3 ∧ off ≤ 16383 then le 2 (off * 4 + 1)
  else if len ≤ 18 ∧ off ≤ 1023 then le 2 ((len - 3) * 4 + off * 64 + 2)
  else if len ≤ 33 then le 3 ((len - 2) * 4 + off * 128 + 3)
  else le 4 ((len - 3) * 128 + off * 32768 + 3)

/-- The destination: what is before the control word that is open, `cword_val`, and what was written behind it. -/
structure W where
  out : List Nat
  cw : Nat
  grp : List Nat

/-- `dst - destination`. -/
def W.size (w : W) : Nat := w.out.length + 4 + w.grp.length

/-- quicklz.cc:318-321, 551-554: the control word is full. -/
def W.flush (w : W) : W := ⟨w.out ++ le 4 (w.cw / 2 + 2 ^ 31) ++ w.grp, 2 ^ 31, []⟩

/-- quicklz.cc:474, 478-508: a match. -/
def W.mat (w : W) (off len : Nat) : W := ⟨w.out, w.cw / 2 + 2 ^ 31, w.grp ++ encMatch off len⟩

/-- quicklz.cc:511-516, 579-582: one byte as it is. -/
def W.lit (w : W) (b : Nat) : W := ⟨w.out, w.cw / 2, w.grp ++ [b]⟩

/-- The positions inside a match are noted, quicklz.cc:467-473. -/
def putAll (s : List Nat) (t : Tab) (p len : Nat) : Tab :=
  (List.range' 1 (len - 1)).foldl (fun t u => t.put (hash (at3 s (p + u))) (p + u)) t

/-- The last bytes, quicklz.cc:547-583. -/
def tail : W → List Nat → W
  | w, [] => w
  | w, b :: l => tail ((if w.cw % 2 = 1 then w.flush else w).lit b) l

/-- The main loop of `qlz_compress_core`, quicklz.cc:310-545; `none`: the result is too long, store instead.  `src <= last_matchstart` is
`p + 11 ≤ size`. -/
def loop (s : List Nat) : Nat → Nat → Tab → W → Option W
  | 0, _, _, _ => none
  | fuel + 1, p, t, w =>
    if p + 11 ≤ s.length then
      if w.cw % 2 = 1 ∧ s.length / 2 < p ∧ p - p / 32 < w.size then none
      else
        let w := if w.cw % 2 = 1 then w.flush else w
        let h := hash (at3 s p)
        let m := search s t p h
        let t := t.put h p
        if 2 < m.2 ∧ p - m.1 < 131071 then loop s fuel (p + m.2) (putAll s t p m.2) (w.mat (p - m.1) m.2)
        else loop s fuel (p + 1) t (w.lit (at1 s p))
    else some (tail w (s.drop p))

/-- quicklz.cc:584-585: the last control word is shifted into place. -/
def shift : Nat → Nat → Nat
  | 0, c => c
  | n + 1, c => if c % 2 = 1 then c else shift n (c / 2)

/-- `qlz_compress_core`, quicklz.cc:293-589.  `junk`: what is in the destination behind the end, of which up to 9 bytes are counted. -/
def core (junk : List Nat) (t : Tab) (s : List Nat) : Option (List Nat) :=
  match loop s (s.length + 1) 0 { t with cnt := fun _ => 0 } ⟨[], 2 ^ 31, []⟩ with
  | none => none
  | some w =>
    let r := w.out ++ le 4 (shift 32 w.cw / 2 + 2 ^ 31) ++ w.grp
    some (r ++ junk.take (9 - r.length))

/-- `qlz_compress`, quicklz.cc:768-846.  First byte: 01SSLLHC.  An empty or a very long text gives nothing. -/
def compress (junk : List Nat) (t : Tab) (s : List Nat) : List Nat :=
  if s.length = 0 ∨ 2 ^ 32 - 1 - 400 < s.length then [] else
  let long := decide (216 ≤ s.length)
  let base := if long then 9 else 3
  let (flag, body) := match core junk t s with
    | some r => (1, r)
    | none => (0, s)
  let n := if long then 4 else 1
  (64 + 12 + (if long then 2 else 0) + flag) :: le n (base + body.length) ++ le n s.length ++ body

/-- The formats of a match as the decompressor reads them, quicklz.cc:668-702: offset, length, bytes read. -/
def decMatch (f : Nat) : Nat × Nat × Nat :=
  if f % 4 = 0 then (f % 256 / 4, 3, 1)
  else if f / 2 % 2 = 0 then (f % 65536 / 4, 3, 2)
  else if f % 2 = 0 then (f % 65536 / 64, f / 4 % 16 + 3, 2)
  else if f % 128 ≠ 3 then (f / 128 % 131072, f / 4 % 32 + 2, 3)
  else (f / 32768, f / 128 % 256 + 3, 4)

/-- `memcpy_up`, quicklz.cc:240-261, byte by byte (source and destination may overlap).  The variant for x86 copies four bytes in steps of
three and so writes the same bytes for offsets from 3. -/
def copy (dst : List Nat) (off : Nat) : Nat → List Nat
  | 0 => dst
  | n + 1 => copy (dst ++ [dst.getD (dst.length - off) 0]) off n

/-- `bitlut`, quicklz.cc:601: how many of the next four are single bytes. -/
def bitlut (n : Nat) : Nat :=
  if n % 2 = 1 then 0 else if n / 2 % 2 = 1 then 1 else if n / 4 % 2 = 1 then 2 else if n / 8 % 2 = 1 then 3 else 4

/-- The last bytes, quicklz.cc:737-757: control words are passed over, `n` bytes are missing. -/
def last : Nat → Nat → List Nat → List Nat → List Nat
  | 0, _, _, dst => dst
  | n + 1, cw, src, dst =>
    let c := if cw = 1 then (2 ^ 31, src.drop 4) else (cw, src)
    last n (c.1 / 2) c.2.tail (dst ++ [c.2.headD 0])

/-- `qlz_decompress_core`, quicklz.cc:591-766; `none`: it does not come to an end in `fuel` rounds. -/
def decode (size : Nat) : Nat → Nat → List Nat → List Nat → Option (List Nat)
  | 0, _, _, _ => none
  | fuel + 1, cw, src, dst =>
    let c := if cw = 1 then (rd 4 src, src.drop 4) else (cw, src)
    if c.1 % 2 = 1 then
      let m := decMatch (rd 4 c.2)
      decode size fuel (c.1 / 2) (c.2.drop m.2.2) (copy dst m.1 m.2.1)
    else if dst.length + 11 < size then
      let n := bitlut (c.1 % 16)
      decode size fuel (c.1 / 2 ^ n) (c.2.drop n) (dst ++ c.2.take n)
    else some (last (size - dst.length) c.1 c.2 dst)

/-- `qlz_decompress`, quicklz.cc:848-887, and `qlz_size_decompressed`, `qlz_size_header`, 214-238. -/
def decompress (c : List Nat) : Option (List Nat) :=
  let n := if c.headD 0 / 2 % 2 = 1 then 4 else 1
  let size := rd n (c.drop (1 + n))
  let body := c.drop (2 * n + 1)
  if c.headD 0 % 2 = 1 then decode size (size + 1) 1 body [] else some (body.take size)

end Verif.Qlz
