import Verif.Ser.X1764
/-!
Write and read buffers: ft/serialize/wbuf.h and rbuf.h.  A call either succeeds, stops the process (a failed assertion),
or touches memory outside its buffer.
-/
namespace Verif.Ser

/-- How a call ends. -/
inductive R (α : Type) where
  | ok (a : α)
  | abort
  | outside
deriving Repr, DecidableEq

def R.bind {α β : Type} (r : R α) (f : α → R β) : R β :=
  match r with
  | .ok a => f a
  | .abort => .abort
  | .outside => .outside

instance : Monad R where
  pure := R.ok
  bind := R.bind

/-- Arithmetic on `unsigned int`. -/
def m32 (x : Nat) : Nat := x % 2 ^ 32

/-- The four bytes of a 32-bit store, least significant first (portability/toku_htod.h:103-111: disk order is host order). -/
def store32 (v : Nat) : List Nat := [v % 256, v / 256 % 256, v / 256 / 256 % 256, v / 256 / 256 / 256 % 256]

/-- `toku_htonl`, portability/toku_htonl.h:43-45, and `toku_ntohl`, 47-49: the bytes the other way round. -/
def htonl (v : Nat) : Nat := le (store32 v).reverse

/-- `struct wbuf`, ft/serialize/wbuf.h:54-59.  `out` is the first `ndone` bytes of the buffer. -/
structure W where
  out : List Nat
  size : Nat
  x : X
deriving Repr, DecidableEq

/-- `wbuf_init`, ft/serialize/wbuf.h:67-70. -/
def W.init (size : Nat) : W := ⟨[], size, X.init⟩

/-- A copy of `bs` to the end of what is written, after the given test of the new length (in 32-bit arithmetic) against the
size: wbuf.h:96, 110, 145.  A copy that passes the test although it does not fit is outside the buffer. -/
def W.put (w : W) (bs : List Nat) : R W :=
  if m32 (w.out.length + bs.length) ≤ w.size then
    if w.out.length + bs.length ≤ w.size then .ok { w with out := w.out ++ bs } else .outside
  else .abort

/-- `toku_x1764_add(&w->checksum, …)` over the bytes just written. -/
def W.crc (w : W) (bs : List Nat) : W := { w with x := w.x.add bs }

/-- `wbuf_nocrc_char`, wbuf.h:77-80, and `wbuf_nocrc_uint8_t`, 83-86. -/
def W.char0 (w : W) (b : Nat) : R W := if w.out.length < w.size then .ok { w with out := w.out ++ [b] } else .abort

/-- `wbuf_char`, wbuf.h:88-91. -/
def W.char (w : W) (b : Nat) : R W := do let w ← w.char0 b; pure (w.crc [b])

/-- `wbuf_network_int`, wbuf.h:95-100. -/
def W.networkInt (w : W) (v : Nat) : R W := do let w ← w.put (store32 (htonl v)); pure (w.crc (store32 (htonl v)))

/-- `wbuf_nocrc_int` and `wbuf_nocrc_uint`, wbuf.h:102-120, 127-129. -/
def W.int0 (w : W) (v : Nat) : R W := w.put (store32 v)

/-- `wbuf_int` and `wbuf_uint`, wbuf.h:122-125, 131-133. -/
def W.int (w : W) (v : Nat) : R W := do let w ← w.int0 v; pure (w.crc (store32 v))

/-- `wbuf_nocrc_literal_bytes`, wbuf.h:142-151. -/
def W.literal0 (w : W) (bs : List Nat) : R W := w.put bs

/-- `wbuf_literal_bytes`, wbuf.h:153-156. -/
def W.literal (w : W) (bs : List Nat) : R W := do let w ← w.literal0 bs; pure (w.crc bs)

/-- `wbuf_nocrc_bytes`, wbuf.h:158-161. -/
def W.bytes0 (w : W) (bs : List Nat) : R W := do let w ← w.int0 bs.length; w.literal0 bs

/-- `wbuf_bytes`, wbuf.h:163-166. -/
def W.bytes (w : W) (bs : List Nat) : R W := do let w ← w.int bs.length; w.literal bs

/-- `wbuf_nocrc_ulonglong`, wbuf.h:168-171. -/
def W.ull0 (w : W) (v : Nat) : R W := do let w ← w.int0 (m32 (v / 2 ^ 32)); w.int0 (v % 2 ^ 32)

/-- `wbuf_ulonglong`, wbuf.h:173-176. -/
def W.ull (w : W) (v : Nat) : R W := do let w ← w.int (m32 (v / 2 ^ 32)); w.int (v % 2 ^ 32)

/-- `wbuf_nocrc_bool`, wbuf.h:187-189. -/
def W.bool0 (w : W) (b : Bool) : R W := w.char0 (if b then 1 else 0)

/-- `struct rbuf`, ft/serialize/rbuf.h:49-53; the size is the length of `buf`. -/
structure Rd where
  buf : List Nat
  ndone : Nat
deriving Repr, DecidableEq

/-- `rbuf_char`, rbuf.h:66-69. -/
def Rd.char (r : Rd) : R (Nat × Rd) :=
  if r.ndone < r.buf.length then
    match r.buf[r.ndone]? with
    | some b => .ok (b, { r with ndone := r.ndone + 1 })
    | none => .outside
  else .abort

/-- `rbuf_ma_bool`, rbuf.h:75-78. -/
def Rd.bool (r : Rd) : R (Bool × Rd) := do let (n, r) ← r.char; pure (n != 0, r)

/-- `n` bytes at the current position; the new position, in 32-bit arithmetic, is tested against the size: rbuf.h:82-87, 89-105,
107-111, 139-146.  When the test passes although the bytes do not fit, the caller reads outside the buffer. -/
def Rd.get (r : Rd) (n : Nat) : R (List Nat × Rd) :=
  if m32 (r.ndone + n) ≤ r.buf.length then
    if r.ndone + n ≤ r.buf.length then .ok ((r.buf.drop r.ndone).take n, { r with ndone := r.ndone + n }) else .outside
  else .abort

/-- `rbuf_int`, rbuf.h:89-105. -/
def Rd.int (r : Rd) : R (Nat × Rd) := do let (bs, r) ← r.get 4; pure (le bs, r)

/-- `rbuf_network_int`, rbuf.h:82-87. -/
def Rd.networkInt (r : Rd) : R (Nat × Rd) := do let (bs, r) ← r.get 4; pure (htonl (le bs), r)

/-- `rbuf_literal_bytes`, rbuf.h:107-111. -/
def Rd.literal (r : Rd) (n : Nat) : R (List Nat × Rd) := r.get n

/-- `rbuf_bytes`, rbuf.h:114-118, `rbuf_BYTESTRING`, 139-146, and `rbuf_ma_BYTESTRING`, 148-156. -/
def Rd.bytes (r : Rd) : R (List Nat × Rd) := do let (n, r) ← r.int; r.get n

/-- `rbuf_ulonglong`, rbuf.h:120-124. -/
def Rd.ull (r : Rd) : R (Nat × Rd) := do
  let (i0, r) ← r.int
  let (i1, r) ← r.int
  pure ((i0 <<< 32) ||| i1, r)

/-- One call of a writer. -/
inductive Field where
  | char (b : Nat)
  | bool (b : Bool)
  | networkInt (v : Nat)
  | int (v : Nat)
  | ull (v : Nat)
  | bytes (bs : List Nat)
  | literal (bs : List Nat)
deriving Repr, DecidableEq

/-- Which reader is called. -/
inductive Kind where
  | char | bool | networkInt | int | ull | bytes
  | literal (n : Nat)
deriving Repr, DecidableEq

def Field.kind : Field → Kind
  | .char _ => .char
  | .bool _ => .bool
  | .networkInt _ => .networkInt
  | .int _ => .int
  | .ull _ => .ull
  | .bytes _ => .bytes
  | .literal bs => .literal bs.length

/-- The writers that add to the checksum.  (There is none for `bool`, wbuf.h:187: `wbuf_char` is used.) -/
def W.field (w : W) : Field → R W
  | .char b => w.char b
  | .bool b => w.char (if b then 1 else 0)
  | .networkInt v => w.networkInt v
  | .int v => w.int v
  | .ull v => w.ull v
  | .bytes bs => w.bytes bs
  | .literal bs => w.literal bs

/-- The writers that do not. -/
def W.field0 (w : W) : Field → R W
  | .char b => w.char0 b
  | .bool b => w.bool0 b
  | .networkInt v => w.put (store32 (htonl v))
  | .int v => w.int0 v
  | .ull v => w.ull0 v
  | .bytes bs => w.bytes0 bs
  | .literal bs => w.literal0 bs

def W.fields (w : W) : List Field → R W
  | [] => .ok w
  | f :: fs => do let w ← w.field f; w.fields fs

def W.fields0 (w : W) : List Field → R W
  | [] => .ok w
  | f :: fs => do let w ← w.field0 f; w.fields0 fs

def Rd.field (r : Rd) : Kind → R (Field × Rd)
  | .char => do let (b, r) ← r.char; pure (.char b, r)
  | .bool => do let (b, r) ← r.bool; pure (.bool b, r)
  | .networkInt => do let (v, r) ← r.networkInt; pure (.networkInt v, r)
  | .int => do let (v, r) ← r.int; pure (.int v, r)
  | .ull => do let (v, r) ← r.ull; pure (.ull v, r)
  | .bytes => do let (bs, r) ← r.bytes; pure (.bytes bs, r)
  | .literal n => do let (bs, r) ← r.literal n; pure (.literal bs, r)

def Rd.fields (r : Rd) : List Kind → R (List Field × Rd)
  | [] => .ok ([], r)
  | k :: ks => do
    let (f, r) ← r.field k
    let (fs, r) ← r.fields ks
    pure (f :: fs, r)

end Verif.Ser
