import Verif.Node.Bn
import Verif.Ule.PackProps
import Verif.Ser.MsgBufDisk
/-!
The bytes of a row's record as they lie in memory: their size is found from the bytes alone, whatever follows them.
-/
set_option linter.unusedVariables false
set_option linter.unusedSimpArgs false
namespace Verif.Node
open Verif.Ser

/-- Bytes as numbers. -/
def nat (bs : List UInt8) : List Nat := bs.map UInt8.toNat

/-- These bytes are what the version stack of some row is stored as (`le_pack`, C07). -/
def Stored (l : List Nat) : Prop := ∃ u bs, Ule.Packable u ∧ Ule.pack u = some (some bs) ∧ l = nat bs

theorem nat_ofNat (bs : List UInt8) : (nat bs).map UInt8.ofNat = bs := by
  induction bs with
  | nil => rfl
  | cons b bs ih => simp only [nat, List.map_cons, UInt8.ofNat_toNat] at *; rw [ih]

theorem nat_append (a b : List UInt8) : nat (a ++ b) = nat a ++ nat b := by simp [nat]
theorem nat_length (a : List UInt8) : (nat a).length = a.length := by simp [nat]
theorem nat_bytes (a : List UInt8) : Bytes (nat a) := by
  intro b hb
  obtain ⟨x, _, rfl⟩ := List.mem_map.mp hb
  exact x.toNat_lt

theorem nat_le (n v : Nat) : nat (Codec.le n v) = BufSpec.digits n v := by
  induction n generalizing v with
  | zero => rfl
  | succ n ih =>
    have := ih (v / 256)
    simp only [nat, Codec.le, List.map_cons, BufSpec.digits] at *
    rw [this]
    simp

/-- The two shapes of a record. -/
inductive Shape : List Nat → Prop
  | clean (v : List Nat) (hv : Bytes v) (hl : v.length < 2 ^ 31) : Shape ([0] ++ (BufSpec.digits 4 v.length ++ v))
  | mvcc (nc np : Nat) (rest : List Nat) (hn : 0 < nc) (hc : nc < 2 ^ 32) (hp : np < 256) (hr : Bytes rest)
      (hs : ∀ post, Ule.restMemsize np nc ((rest ++ post).map UInt8.ofNat) = some ((), post.map UInt8.ofNat)) : Shape ([1] ++ (BufSpec.digits 4 nc ++ ([np] ++ rest)))

theorem Stored.shape {l : List Nat} (h : Stored l) : Shape l := by
  obtain ⟨u, bs, hp, hb, rfl⟩ := h
  by_cases hi : Ule.HasInsert u
  · rcases Ule.clean_or_mv hp hi with ⟨v, hv⟩ | hm
    · rw [Ule.pack_clean hp hv] at hb
      simp only [Option.some.injEq] at hb
      subst hb
      rw [nat_append, nat_append, nat_le, nat_le, ← nat_length v]
      have := hp.vlen ⟨0, .insert v⟩ (by simp [hv])
      exact Shape.clean (nat v) (nat_bytes v) (by rw [nat_length]; exact this)
    · rw [Ule.pack_mvcc hp hi hm] at hb
      simp only [Option.some.injEq] at hb
      subst hb
      unfold Ule.packMvcc
      rw [nat_append, nat_append, nat_append, nat_le, nat_le, nat_le]
      have h1 := hp.plen
      have e : BufSpec.digits 1 u.pux.length = [u.pux.length] := by simp [BufSpec.digits]; omega
      rw [e]
      refine Shape.mvcc _ _ _ (List.length_pos_iff.mpr hp.cne) hp.clen (by omega) (nat_bytes _) fun post => ?_
      rw [List.map_append, nat_ofNat]
      have := Ule.restMemsize_run hp (post.map UInt8.ofNat)
      simp only [List.append_assoc] at this ⊢
      rw [this]
  · rw [Ule.pack_none hp hi] at hb; simp at hb

theorem restSize_of {np nc : Nat} {rest post : List Nat}
    (h : Ule.restMemsize np nc ((rest ++ post).map UInt8.ofNat) = some ((), post.map UInt8.ofNat)) : restSize np nc (rest ++ post) = some rest.length := by
  unfold restSize
  rw [h]
  simp only [Option.map_some, List.length_append, List.length_map, Option.some.injEq]
  omega

theorem digits_ofNat (n v : Nat) : (BufSpec.digits n v).map UInt8.ofNat = Codec.le n v := by rw [← nat_le, nat_ofNat]

theorem Shape.size {l : List Nat} (h : Shape l) (post : List Nat) : leSize (l ++ post) = some l.length := by
  unfold leSize
  cases h with
  | clean v hv hl =>
    have h4 : Codec.Reads (Codec.num 4) (Codec.le 4 v.length) v.length := Codec.Reads.num (by omega)
    simp only [List.map_append, List.append_assoc, digits_ofNat]
    unfold Ule.memsize
    rw [show [0].map UInt8.ofNat = Codec.le 1 0 from rfl, Ule.reads_zero.run, if_pos rfl, h4.run]
    simp [Codec.ret, digits_length]
    omega
  | mvcc nc np rest hn hc hp hr hs =>
    have h4 : Codec.Reads (Codec.num 4) (Codec.le 4 nc) nc := Codec.Reads.num (by omega)
    have h1 : Codec.Reads (Codec.num 1) (Codec.le 1 np) np := Codec.Reads.num (by omega)
    have e : [np].map UInt8.ofNat = Codec.le 1 np := by
      rw [← digits_ofNat]; simp [BufSpec.digits, Nat.mod_eq_of_lt hp]
    have hs := hs post
    rw [List.map_append] at hs
    simp only [List.map_append, List.append_assoc, digits_ofNat, e]
    unfold Ule.memsize
    rw [show [1].map UInt8.ofNat = Codec.le 1 1 from rfl, Ule.reads_one.run, if_neg (by decide), if_pos rfl, h4.run, if_neg (by omega), h1.run]
    unfold Codec.andThen
    rw [hs]
    simp [Codec.ret, digits_length]
    omega

theorem Shape.bytes {l : List Nat} (h : Shape l) : Bytes l := by
  cases h with
  | clean v hv hl => simp only [Bytes.append]; exact ⟨by simp [Bytes], digits_bytes _ _, hv⟩
  | mvcc nc np rest hn hc hp hr hs => simp only [Bytes.append]; exact ⟨by simp [Bytes], digits_bytes _ _, by simpa [Bytes] using hp, hr⟩

theorem Shape.pos {l : List Nat} (h : Shape l) : 0 < l.length := by
  cases h <;> simp

end Verif.Node
