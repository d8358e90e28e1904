import Verif.Ser.BufLemmas
/-!
Reading from and writing to a buffer at its current position.
-/
set_option linter.unusedVariables false
set_option linter.unusedSimpArgs false
namespace Verif.Node
open Verif.Ser

/-- The bytes from the current position on are `bs`. -/
structure At (r : Rd) (bs : List Nat) : Prop where
  drop : r.buf.drop r.ndone = bs
  le : r.ndone ≤ r.buf.length

theorem At.start (bs : List Nat) : At ⟨bs, 0⟩ bs := ⟨rfl, Nat.zero_le _⟩
theorem At.mid (pre bs : List Nat) : At ⟨pre ++ bs, pre.length⟩ bs := ⟨by simp, by simp⟩

theorem At.len {r : Rd} {bs : List Nat} (h : At r bs) : r.buf.length = r.ndone + bs.length := by
  have := congrArg List.length h.drop
  rw [List.length_drop] at this
  have := h.le
  omega

def Rd.adv (r : Rd) (n : Nat) : Rd := { r with ndone := r.ndone + n }

@[simp] theorem adv_ndone (r : Rd) (n : Nat) : (Rd.adv r n).ndone = r.ndone + n := rfl
@[simp] theorem adv_buf (r : Rd) (n : Nat) : (Rd.adv r n).buf = r.buf := rfl

theorem At.adv {r : Rd} {a b : List Nat} (h : At r (a ++ b)) {n : Nat} (hn : n = a.length) : At (Rd.adv r n) b := by
  subst hn
  have := h.len
  refine ⟨?_, by simp only [adv_ndone, adv_buf]; rw [List.length_append] at this; omega⟩
  simp only [adv_ndone, adv_buf]
  rw [← List.drop_drop, h.drop, List.drop_left]

theorem At.get {r : Rd} {a b : List Nat} (h : At r (a ++ b)) {n : Nat} (hn : n = a.length) : r.get n = .ok (a, Rd.adv r n) := by
  have := h.len
  rw [List.length_append] at this
  rw [Rd.get, if_pos (by unfold m32; exact Nat.le_trans (Nat.mod_le _ _) (by omega)), if_pos (by omega), h.drop, hn, List.take_left]
  rfl

theorem At.literal {r : Rd} {a b : List Nat} (h : At r (a ++ b)) {n : Nat} (hn : n = a.length) : r.literal n = .ok (a, Rd.adv r n) := h.get hn

theorem At.int {r : Rd} {v : Nat} {b : List Nat} (h : At r (BufSpec.digits 4 v ++ b)) (hv : v < 2 ^ 32) : r.int = .ok (v, Rd.adv r 4) := by
  rw [Rd.int, h.get (n := 4) (by rw [digits_length]), R.bind_ok]
  simp only [R.pure_ok]
  rw [le_digits, Nat.mod_eq_of_lt (by omega)]

theorem At.int_mod {r : Rd} {v : Nat} {b : List Nat} (h : At r (BufSpec.digits 4 v ++ b)) : r.int = .ok (v % 2 ^ 32, Rd.adv r 4) := by
  rw [Rd.int, h.get (n := 4) (by rw [digits_length]), R.bind_ok]
  simp only [R.pure_ok]
  rw [le_digits]

theorem At.networkInt {r : Rd} {v : Nat} {b : List Nat} (h : At r ((BufSpec.digits 4 v).reverse ++ b)) (hv : v < 2 ^ 32) : r.networkInt = .ok (v, Rd.adv r 4) := by
  rw [Rd.networkInt, h.get (n := 4) (by rw [List.length_reverse, digits_length]), R.bind_ok]
  simp only [R.pure_ok]
  rw [htonl_le hv]

theorem At.int_adv {r : Rd} {v : Nat} {b : List Nat} (h : At r (BufSpec.digits 4 v ++ b)) : At (Rd.adv r 4) b := h.adv (by rw [digits_length])
theorem At.networkInt_adv {r : Rd} {v : Nat} {b : List Nat} (h : At r ((BufSpec.digits 4 v).reverse ++ b)) : At (Rd.adv r 4) b := h.adv (by rw [List.length_reverse, digits_length])

theorem At.char {r : Rd} {v : Nat} {b : List Nat} (h : At r ([v] ++ b)) : r.char = .ok (v, Rd.adv r 1) := by
  have := h.len
  rw [List.length_append, List.length_singleton] at this
  rw [Rd.char.eq_def, if_pos (by omega)]
  have : r.buf[r.ndone]? = some v := by
    have e : (r.buf.drop r.ndone)[0]? = some v := by rw [h.drop]; rfl
    rw [List.getElem?_drop] at e
    simpa using e
  rw [this]; rfl

theorem At.char_adv {r : Rd} {v : Nat} {b : List Nat} (h : At r ([v] ++ b)) : At (Rd.adv r 1) b := h.adv rfl

theorem At.ull {r : Rd} {v : Nat} {b : List Nat} (h : At r (BufSpec.digits 4 (v / 2 ^ 32) ++ BufSpec.digits 4 (v % 2 ^ 32) ++ b)) (hv : v < 2 ^ 64) :
    r.ull = .ok (v, Rd.adv r 8) := by
  rw [List.append_assoc] at h
  rw [Rd.ull, h.int (by omega), R.bind_ok]
  simp only
  rw [h.int_adv.int (by omega), R.bind_ok]
  have : (v / 2 ^ 32) <<< 32 ||| v % 2 ^ 32 = v := by
    rw [← Nat.shiftLeft_add_eq_or_of_lt (Nat.mod_lt _ (by decide)), Nat.shiftLeft_eq]; omega
  simp only [R.pure_ok]
  rw [this]; rfl

theorem At.ull_adv {r : Rd} {v : Nat} {b : List Nat} (h : At r (BufSpec.digits 4 (v / 2 ^ 32) ++ BufSpec.digits 4 (v % 2 ^ 32) ++ b)) : At (Rd.adv r 8) b :=
  h.adv (by rw [List.length_append, digits_length, digits_length])

theorem At.bytes {r : Rd} {v : List Nat} {b : List Nat} (h : At r (BufSpec.digits 4 v.length ++ v ++ b)) (hv : v.length < 2 ^ 32) : r.bytes = .ok (v, Rd.adv r (4 + v.length)) := by
  rw [List.append_assoc] at h
  rw [Rd.bytes, h.int hv, R.bind_ok]
  simp only
  rw [h.int_adv.get rfl]
  simp only [Rd.adv, Nat.add_assoc]

theorem At.bytes_adv {r : Rd} {v : List Nat} {b : List Nat} (h : At r (BufSpec.digits 4 v.length ++ v ++ b)) : At (Rd.adv r (4 + v.length)) b :=
  h.adv (by rw [List.length_append, digits_length])

/-! ### Writing -/

def W.push (w : W) (bs : List Nat) : W := { w with out := w.out ++ bs }

@[simp] theorem push_length (w : W) (bs : List Nat) : (W.push w bs).out.length = w.out.length + bs.length := by simp [W.push]
@[simp] theorem push_size (w : W) (bs : List Nat) : (W.push w bs).size = w.size := rfl
theorem push_push (w : W) (a b : List Nat) : W.push (W.push w a) b = W.push w (a ++ b) := by simp [W.push]
theorem push_nil (w : W) : W.push w [] = w := by simp [W.push]

/-- The writer appends exactly `bs`, given room. -/
def Puts (f : W → R W) (bs : List Nat) : Prop := ∀ w : W, w.out.length + bs.length ≤ w.size → f w = .ok (W.push w bs)

theorem Puts.put (bs : List Nat) : Puts (fun w => w.put bs) bs := fun w h => W.put_ok h
theorem Puts.literal (bs : List Nat) : Puts (fun w => w.literal0 bs) bs := fun w h => W.put_ok h
theorem Puts.int (v : Nat) : Puts (fun w => w.int0 v) (BufSpec.digits 4 v) := fun w h => W.put_ok h
theorem Puts.char (b : Nat) : Puts (fun w => w.char0 b) [b] := by
  intro w h
  simp only [List.length_singleton] at h
  show W.char0 w b = _
  rw [W.char0, if_pos (by omega)]; rfl
theorem Puts.nil : Puts (fun w => .ok w) [] := fun w h => by rw [push_nil]
theorem Puts.seq {f g : W → R W} {a b : List Nat} (hf : Puts f a) (hg : Puts g b) : Puts (fun w => f w >>= g) (a ++ b) := by
  intro w h
  rw [List.length_append] at h
  show f w >>= g = _
  rw [hf w (by omega), R.bind_ok, hg _ (by simp; omega), push_push]
theorem Puts.congr {f g : W → R W} {a b : List Nat} (hf : Puts f a) (h : ∀ w, g w = f w) (e : b = a) : Puts g b := by
  intro w hw
  rw [h, e]; exact hf w (by rw [← e]; exact hw)
theorem Puts.ull {v : Nat} (hv : v < 2 ^ 64) : Puts (fun w => w.ull0 v) (BufSpec.digits 4 (v / 2 ^ 32) ++ BufSpec.digits 4 (v % 2 ^ 32)) := by
  have : m32 (v / 2 ^ 32) = v / 2 ^ 32 := by unfold m32; omega
  exact ((Puts.int (v / 2 ^ 32)).seq (Puts.int (v % 2 ^ 32))).congr (fun w => by rw [W.ull0, this]) rfl
theorem Puts.bytes (bs : List Nat) : Puts (fun w => w.bytes0 bs) (BufSpec.digits 4 bs.length ++ bs) := (Puts.int _).seq (Puts.literal _)

end Verif.Node
