/-!
Byte strings, fixed-width little-endian integers, and parsers that consume a prefix of a byte string.

On disk every integer of PerconaFT is little-endian (portability/toku_htod.h: `toku_htod32`/`toku_htod64`
are the identity on little-endian machines).  A parser returns `none` when it would read past the end of
the buffer (undefined behaviour, or an assertion failure, in the C++).
-/
namespace Verif.Codec

abbrev Bytes := List UInt8

/-- `v` as `n` little-endian bytes (a store through an integer pointer after `toku_htod*`). -/
def le : Nat → Nat → Bytes
  | 0, _ => []
  | n + 1, v => UInt8.ofNat (v % 256) :: le n (v / 256)

/-- The value of little-endian bytes. -/
def ofLe : Bytes → Nat
  | [] => 0
  | b :: bs => b.toNat + 256 * ofLe bs

@[simp] theorem le_length (n v : Nat) : (le n v).length = n := by
  induction n generalizing v with
  | zero => rfl
  | succ n ih => simp [le, ih]

theorem ofLe_le (n v : Nat) (h : v < 256 ^ n) : ofLe (le n v) = v := by
  induction n generalizing v with
  | zero => simp at h; subst h; rfl
  | succ n ih =>
    have hd : v / 256 < 256 ^ n := by
      rw [Nat.pow_succ] at h
      exact Nat.div_lt_of_lt_mul (by rw [Nat.mul_comm]; exact h)
    simp only [le, ofLe, ih _ hd, UInt8.toNat_ofNat']
    omega

theorem ofLe_lt (bs : Bytes) : ofLe bs < 256 ^ bs.length := by
  induction bs with
  | nil => simp [ofLe]
  | cons b bs ih =>
    have := b.toNat_lt
    simp only [ofLe, List.length_cons, Nat.pow_succ]
    omega

theorem le_ofLe (bs : Bytes) : le bs.length (ofLe bs) = bs := by
  induction bs with
  | nil => rfl
  | cons b bs ih =>
    have hb := b.toNat_lt
    have h1 : (b.toNat + 256 * ofLe bs) % 256 = b.toNat := by omega
    have h2 : (b.toNat + 256 * ofLe bs) / 256 = ofLe bs := by omega
    simp only [ofLe, List.length_cons, le, h1, h2, ih]
    simp

/-- Two values in range with the same encoding are equal. -/
theorem le_inj {n v w : Nat} (hv : v < 256 ^ n) (hw : w < 256 ^ n) (h : le n v = le n w) : v = w := by
  rw [← ofLe_le n v hv, ← ofLe_le n w hw, h]

/-- A parser. -/
abbrev P (α : Type) := Bytes → Option (α × Bytes)

/-- Succeed without reading. -/
def ret {α} (a : α) : P α := fun bs => some (a, bs)
/-- Fail. -/
def fail {α} : P α := fun _ => none
/-- Sequence. -/
def andThen {α β} (p : P α) (f : α → P β) : P β := fun bs => (p bs).bind fun r => f r.1 r.2

/-- Take `n` bytes. -/
def take (n : Nat) : P Bytes := fun bs => if n ≤ bs.length then some (bs.take n, bs.drop n) else none
/-- Read an `n`-byte little-endian integer. -/
def num (n : Nat) : P Nat := andThen (take n) fun b => ret (ofLe b)
/-- Move the pointer forward. -/
def skip (n : Nat) : P Unit := andThen (take n) fun _ => ret ()
/-- `n` times. -/
def rep {α} (p : P α) : Nat → P (List α)
  | 0 => ret []
  | n + 1 => andThen p fun a => andThen (rep p n) fun as => ret (a :: as)
/-- Once per element. -/
def each {α β} (f : β → P α) : List β → P (List α)
  | [] => ret []
  | b :: bs => andThen (f b) fun a => andThen (each f bs) fun as => ret (a :: as)

/-- `p` reads `a` off the front of `enc ++ rest`, whatever `rest` is. -/
def Reads {α} (p : P α) (enc : Bytes) (a : α) : Prop := ∀ rest, p (enc ++ rest) = some (a, rest)

theorem Reads.ret {α} (a : α) : Reads (ret a) [] a := fun _ => rfl

theorem Reads.andThen {α β} {p : P α} {f : α → P β} {e1 e2 : Bytes} {a : α} {b : β}
    (h1 : Reads p e1 a) (h2 : Reads (f a) e2 b) : Reads (andThen p f) (e1 ++ e2) b := by
  intro rest
  unfold Codec.andThen
  rw [List.append_assoc, h1, Option.bind_some]
  exact h2 rest

theorem Reads.bindRet {α β} {p : P α} {f : α → P β} {e : Bytes} {a : α} {b : β}
    (h1 : Reads p e a) (h2 : Reads (f a) [] b) : Reads (Codec.andThen p f) e b := by
  have := h1.andThen h2
  rwa [List.append_nil] at this

theorem Reads.take (bs : Bytes) : Reads (take bs.length) bs bs := by
  intro rest
  simp [Codec.take]

theorem Reads.num {n v : Nat} (h : v < 256 ^ n) : Reads (num n) (le n v) v := by
  intro rest
  have := Reads.take (le n v) rest
  rw [le_length] at this
  simp only [Codec.num, Codec.andThen, this, Option.bind_some, Codec.ret, ofLe_le n v h]

theorem Reads.skip (bs : Bytes) : Reads (skip bs.length) bs () := by
  intro rest
  simp only [Codec.skip, Codec.andThen, Reads.take bs rest, Option.bind_some, Codec.ret]

theorem Reads.rep {α β} {p : P α} {enc : β → Bytes} {val : β → α} (l : List β)
    (h : ∀ x ∈ l, Reads p (enc x) (val x)) : Reads (rep p l.length) (l.flatMap enc) (l.map val) := by
  induction l with
  | nil => exact Reads.ret _
  | cons x l ih =>
    rw [List.flatMap_cons, List.map_cons]
    refine (h x (List.mem_cons_self ..)).andThen ?_
    exact (ih fun y hy => h y (List.mem_cons_of_mem _ hy)).bindRet (Reads.ret _)

theorem Reads.each {α β γ} {f : γ → P α} {enc : β → Bytes} {val : β → α} {key : β → γ} (l : List β)
    (h : ∀ x ∈ l, Reads (f (key x)) (enc x) (val x)) : Reads (each f (l.map key)) (l.flatMap enc) (l.map val) := by
  induction l with
  | nil => exact Reads.ret _
  | cons x l ih =>
    rw [List.flatMap_cons, List.map_cons, List.map_cons]
    refine (h x (List.mem_cons_self ..)).andThen ?_
    exact (ih fun y hy => h y (List.mem_cons_of_mem _ hy)).bindRet (Reads.ret _)

/-- A parser that reads a prefix code decodes it uniquely. -/
theorem Reads.unique {α} {p : P α} {e : Bytes} {a b : α} (h1 : Reads p e a) (h2 : Reads p e b) : a = b := by
  have := (h1 []).symm.trans (h2 [])
  simpa using this

end Verif.Codec

namespace Verif.Codec

theorem Reads.run {α β} {p : P α} {e : Bytes} {a : α} (h : Reads p e a) (f : α → P β) (r : Bytes) :
    Codec.andThen p f (e ++ r) = f a r := by
  unfold Codec.andThen
  rw [h r, Option.bind_some]

theorem run_ret {α β} (a : α) (f : α → P β) (r : Bytes) : andThen (Codec.ret a) f r = f a r := rfl

theorem le_one (v : Nat) : le 1 v = [UInt8.ofNat (v % 256)] := rfl

end Verif.Codec
