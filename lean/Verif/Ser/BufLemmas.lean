import Verif.Ser.XLemmas
import Verif.Ser.Buf
import Verif.Ser.BufSpec

namespace Verif.Ser

/-! ### The checksum -/

theorem combine_cut (full rest : List Nat) (hr : rest.length < 8) : ∀ c, full.length % 8 = 0 →
    XSpec.combine c (XSpec.cut (full ++ rest)) = if 0 < rest.length then m64 (H c full * 17 + le rest) else H c full := by
  induction hn : full.length using Nat.strongRecOn generalizing full with
  | ind n ih =>
    intro c hm
    by_cases h0 : full.length = 0
    · have e := List.length_eq_zero_iff.mp h0
      subst e
      simp only [List.nil_append]
      unfold XSpec.cut
      by_cases hrest : rest = []
      · subst hrest; rfl
      · rw [dif_neg hrest]
        have hp := List.length_pos_iff.mpr hrest
        rw [if_pos hp, List.take_of_length_le (by omega), List.drop_of_length_le (by omega)]
        unfold XSpec.cut
        simp only [XSpec.combine, List.foldl_cons, List.foldl_nil, dif_pos, word_eq]
        rfl
    · have h8 : 8 ≤ full.length := by omega
      have e : full = full.take 8 ++ full.drop 8 := (List.take_append_drop 8 full).symm
      have hl : (full.take 8).length = 8 := by rw [List.length_take]; omega
      have hH : H c full = H (m64 (c * 17 + le (full.take 8))) (full.drop 8) := by
        unfold H
        conv => lhs; rw [e, wordLoop_eight _ hl]
      have hne : full ++ rest ≠ [] := by
        intro h
        have := congrArg List.length h
        simp only [List.length_append, List.length_nil] at this
        omega
      rw [hH]
      unfold XSpec.cut
      rw [dif_neg hne]
      have := ih (full.drop 8).length (by rw [List.length_drop]; omega) (full.drop 8) rfl (m64 (c * 17 + le (full.take 8))) (by rw [List.length_drop]; omega)
      rw [← this]
      simp only [XSpec.combine, List.foldl_cons, word_eq]
      rw [List.take_append_of_le_length h8, List.drop_append_of_le_length h8]
      rfl

theorem fold32_spec (full rest : List Nat) (hr : rest.length < 8) (hm : full.length % 8 = 0) :
    fold32 (if 0 < rest.length then m64 (H 0 full * 17 + le rest) else H 0 full) = XSpec.checksum (full ++ rest) := by
  unfold XSpec.checksum
  simp only
  rw [combine_cut full rest hr 0 hm]
  rfl

theorem finish_spec {l : X} {bs : List Nat} (h : St bs l.sum l.input l.n) (hn : l.n < 8) : l.finish = XSpec.checksum bs := by
  obtain ⟨full, rest, h1, h2, h3, h4, h5, h6⟩ := h
  subst h1
  rw [← fold32_spec full rest (by omega) h2, X.finish, h5, h6, h3]

theorem split8 (w : List Nat) : ∃ f r, w = f ++ r ∧ f.length % 8 = 0 ∧ r.length < 8 :=
  ⟨w.take (w.length / 8 * 8), w.drop (w.length / 8 * 8), (List.take_append_drop _ _).symm, by rw [List.length_take]; omega, by rw [List.length_drop]; omega⟩

theorem memorySimple_spec {bs : List Nat} (hb : Bytes bs) : memorySimple bs = XSpec.checksum bs := by
  obtain ⟨f, r, e1, e2, e3⟩ := split8 bs
  subst e1
  unfold memorySimple
  simp only [wordLoop_split f r 0 e2 e3]
  rw [← fold32_spec f r e3 e2, orBytes_zero (Bytes.append.mp hb).2 (by omega)]

/-- The sum that four interleaved sums stand for. -/
def quadSum (q : Nat × Nat × Nat × Nat) : Nat := m64 (q.1 * 17 * 17 * 17 + q.2.1 * 17 * 17 + q.2.2.1 * 17 + q.2.2.2)

theorem m64_mul_add (a k b : Nat) : m64 (m64 a * k + b) = m64 (a * k + b) := by
  unfold m64
  rw [Nat.add_mod, Nat.mod_mul_mod, ← Nat.add_mod]

theorem m64_add_m64 (a b : Nat) : m64 (a + m64 b) = m64 (a + b) := by
  unfold m64; rw [Nat.add_mod_mod]

theorem quad_step (a b c d w0 w1 w2 w3 : Nat) :
    quadSum (m64 (a * (17 * 17 * 17 * 17) + w0), m64 (b * (17 * 17 * 17 * 17) + w1), m64 (c * (17 * 17 * 17 * 17) + w2), m64 (d * (17 * 17 * 17 * 17) + w3)) =
      m64 (m64 (m64 (m64 (quadSum (a, b, c, d) * 17 + w0) * 17 + w1) * 17 + w2) * 17 + w3) := by
  unfold quadSum m64
  simp only
  omega

theorem quadLoop_spec (buf : List Nat) (q : Nat × Nat × Nat × Nat) :
    ∃ f r, buf = f ++ r ∧ f.length % 8 = 0 ∧ (quadLoop q buf).2 = r ∧ quadSum (quadLoop q buf).1 = H (quadSum q) f := by
  induction hn : buf.length using Nat.strongRecOn generalizing buf q with
  | ind n ih =>
    obtain ⟨a, b, c, d⟩ := q
    unfold quadLoop
    by_cases h : 32 ≤ buf.length
    · rw [dif_pos h]
      simp only
      have e : buf = buf.take 8 ++ ((buf.drop 8).take 8 ++ ((buf.drop 16).take 8 ++ ((buf.drop 24).take 8 ++ buf.drop 32))) := by
        rw [show buf.drop 32 = (buf.drop 24).drop 8 by rw [List.drop_drop], List.take_append_drop, show buf.drop 24 = (buf.drop 16).drop 8 by rw [List.drop_drop],
          List.take_append_drop, show buf.drop 16 = (buf.drop 8).drop 8 by rw [List.drop_drop], List.take_append_drop, List.take_append_drop]
      obtain ⟨f, r, e1, e2, e3, e4⟩ := ih (buf.drop 32).length (by rw [List.length_drop]; omega) (buf.drop 32)
        (m64 (a * (17 * 17 * 17 * 17) + le (buf.take 8)), m64 (b * (17 * 17 * 17 * 17) + le ((buf.drop 8).take 8)), m64 (c * (17 * 17 * 17 * 17) + le ((buf.drop 16).take 8)), m64 (d * (17 * 17 * 17 * 17) + le ((buf.drop 24).take 8))) rfl
      have l0 : (buf.take 8).length = 8 := by rw [List.length_take]; omega
      have l1 : ((buf.drop 8).take 8).length = 8 := by rw [List.length_take, List.length_drop]; omega
      have l2 : ((buf.drop 16).take 8).length = 8 := by rw [List.length_take, List.length_drop]; omega
      have l3 : ((buf.drop 24).take 8).length = 8 := by rw [List.length_take, List.length_drop]; omega
      refine ⟨buf.take 8 ++ ((buf.drop 8).take 8 ++ ((buf.drop 16).take 8 ++ ((buf.drop 24).take 8 ++ f))), r, ?_, ?_, e3, ?_⟩
      · conv => lhs; rw [e, e1]
        simp only [List.append_assoc]
      · simp only [List.length_append, l0, l1, l2, l3]; omega
      · rw [e4, quad_step, H_append _ _ _ (by omega), H_append _ _ _ (by omega), H_append _ _ _ (by omega), H_append _ _ _ (by omega), H_eight _ l0, H_eight _ l1, H_eight _ l2, H_eight _ l3]
    · rw [dif_neg h]
      exact ⟨[], buf, rfl, rfl, rfl, rfl⟩

theorem memory_spec {bs : List Nat} (hb : Bytes bs) : memory bs = XSpec.checksum bs := by
  obtain ⟨f, r, e1, e2, e3, e4⟩ := quadLoop_spec bs (0, 0, 0, 0)
  obtain ⟨g, s, g1, g2, g3⟩ := split8 r
  unfold memory
  simp only
  have hq : m64 ((quadLoop (0, 0, 0, 0) bs).1.1 * 17 * 17 * 17 + (quadLoop (0, 0, 0, 0) bs).1.2.1 * 17 * 17 + (quadLoop (0, 0, 0, 0) bs).1.2.2.1 * 17 + (quadLoop (0, 0, 0, 0) bs).1.2.2.2) = H 0 f := e4
  rw [hq, e3]
  subst g1
  rw [wordLoop_split g s _ g2 g3]
  subst e1
  have hs : Bytes s := (Bytes.append.mp (Bytes.append.mp hb).2).2
  rw [orBytes_zero hs (by omega), ← List.append_assoc, ← fold32_spec (f ++ g) s g3 (by simp only [List.length_append]; omega), H_append _ _ _ e2]

/-! ### Writing -/

theorem store32_digits (v : Nat) : store32 v = BufSpec.digits 4 v := rfl

theorem digits_bytes (n v : Nat) : Bytes (BufSpec.digits n v) := by
  induction n generalizing v with
  | zero => simp [BufSpec.digits, Bytes]
  | succ n ih => exact Bytes.cons.mpr ⟨Nat.mod_lt _ (by omega), ih _⟩

theorem digits_length (n v : Nat) : (BufSpec.digits n v).length = n := by
  induction n generalizing v with
  | zero => rfl
  | succ n ih => simp [BufSpec.digits, ih]

theorem le_digits (n v : Nat) : le (BufSpec.digits n v) = v % 256 ^ n := by
  induction n generalizing v with
  | zero => simp [BufSpec.digits, le, Nat.mod_one]
  | succ n ih =>
    rw [BufSpec.digits, le, ih, Nat.pow_succ, Nat.mul_comm (256 ^ n), Nat.mod_mul]

theorem digits_le {l : List Nat} (h : Bytes l) : BufSpec.digits l.length (le l) = l := by
  induction l with
  | nil => rfl
  | cons b bs ih =>
    have hb := Bytes.cons.mp h
    simp only [List.length_cons, BufSpec.digits, le]
    rw [Nat.add_mul_mod_self_left, Nat.mod_eq_of_lt hb.1, Nat.add_mul_div_left _ _ (by omega : 0 < 256), Nat.div_eq_of_lt hb.1, Nat.zero_add, ih hb.2]

theorem store_htonl (v : Nat) : store32 (htonl v) = (BufSpec.digits 4 v).reverse := by
  have hb : Bytes (BufSpec.digits 4 v).reverse := fun b hb => digits_bytes 4 v b (List.mem_reverse.mp hb)
  have := digits_le hb
  rw [List.length_reverse, digits_length] at this
  exact this

theorem htonl_le {v : Nat} (hv : v < 2 ^ 32) : htonl (le (BufSpec.digits 4 v).reverse) = v := by
  have hb : Bytes (BufSpec.digits 4 v).reverse := fun b hb => digits_bytes 4 v b (List.mem_reverse.mp hb)
  have := digits_le hb
  rw [List.length_reverse, digits_length] at this
  unfold htonl
  rw [store32_digits, this, List.reverse_reverse, le_digits]
  exact Nat.mod_eq_of_lt hv

theorem Valid.bytes {f : Field} (h : BufSpec.Valid f) : Bytes (BufSpec.bytes f) := by
  cases f with
  | char b => exact Bytes.cons.mpr ⟨h, by simp [Bytes]⟩
  | bool b => exact Bytes.cons.mpr ⟨by cases b <;> decide, by simp [Bytes]⟩
  | networkInt v => exact fun b hb => digits_bytes 4 v b (List.mem_reverse.mp hb)
  | int v => exact digits_bytes 4 v
  | ull v => exact Bytes.append.mpr ⟨digits_bytes 4 _, digits_bytes 4 _⟩
  | bytes bs => exact Bytes.append.mpr ⟨digits_bytes 4 _, h.2⟩
  | literal bs => exact h.2

theorem W.put_ok {w : W} {bs : List Nat} (h : w.out.length + bs.length ≤ w.size) : w.put bs = .ok { w with out := w.out ++ bs } := by
  unfold W.put m32
  rw [if_pos (Nat.le_trans (Nat.mod_le _ _) h), if_pos h]

/-- The checksum state covers everything written. -/
structure W.OK (w : W) : Prop where
  st : St w.out w.x.sum w.x.input w.x.n
  n8 : w.x.n < 8
  bytes : Bytes w.out

theorem W.OK.init (size : Nat) : (W.init size).OK := ⟨St.zero, (by decide : 0 < 8), by simp [W.init, Bytes]⟩

theorem W.OK.crc {w : W} (h : w.OK) {bs : List Nat} (hb : Bytes bs) : W.OK { out := w.out ++ bs, size := w.size, x := w.x.add bs } := by
  have := X.add_st h.st h.n8 h.bytes hb
  exact ⟨this.1, this.2, Bytes.append.mpr ⟨h.bytes, hb⟩⟩

theorem R.bind_ok {α β : Type} (a : α) (f : α → R β) : (R.ok a >>= f) = f a := rfl
theorem R.pure_ok {α : Type} (a : α) : (pure a : R α) = R.ok a := rfl

theorem W.put_crc {w : W} (h : w.OK) {bs : List Nat} (hb : Bytes bs) (hf : w.out.length + bs.length ≤ w.size) :
    ∃ w', (do let w ← w.put bs; pure (w.crc bs)) = R.ok w' ∧ w'.OK ∧ w'.out = w.out ++ bs ∧ w'.size = w.size := by
  rw [W.put_ok hf, R.bind_ok]
  exact ⟨_, rfl, h.crc hb, rfl, rfl⟩

theorem W.field_ok {w : W} {f : Field} (h : w.OK) (hv : BufSpec.Valid f) (hf : w.out.length + (BufSpec.bytes f).length ≤ w.size) :
    ∃ w', w.field f = .ok w' ∧ w'.OK ∧ w'.out = w.out ++ BufSpec.bytes f ∧ w'.size = w.size := by
  have hb := Valid.bytes hv
  have two : ∀ a b : List Nat, Bytes a → Bytes b → w.out.length + (a ++ b).length ≤ w.size →
      ∃ w', (do let w ← (do let w ← w.put a; pure (w.crc a)); (do let w ← w.put b; pure (w.crc b))) = R.ok w' ∧ w'.OK ∧ w'.out = w.out ++ (a ++ b) ∧ w'.size = w.size := by
    intro a b ha hb hl
    rw [List.length_append] at hl
    obtain ⟨w1, e1, h1, o1, s1⟩ := W.put_crc h ha (by omega)
    obtain ⟨w2, e2, h2, o2, s2⟩ := W.put_crc (w := w1) h1 hb (by rw [o1, s1, List.length_append]; omega)
    exact ⟨w2, by rw [e1, R.bind_ok, e2], h2, by rw [o2, o1, List.append_assoc], by rw [s2, s1]⟩
  have one : ∀ b : Nat, Bytes [b] → w.out.length + 1 ≤ w.size → ∃ w', w.char b = .ok w' ∧ w'.OK ∧ w'.out = w.out ++ [b] ∧ w'.size = w.size := by
    intro b hb hl
    unfold W.char W.char0
    rw [if_pos (by omega), R.bind_ok]
    exact ⟨_, rfl, h.crc hb, rfl, rfl⟩
  cases f with
  | char b => exact one b hb hf
  | bool b => exact one _ hb hf
  | networkInt v =>
    simp only [W.field, W.networkInt, store_htonl]
    exact W.put_crc h hb hf
  | int v => exact W.put_crc h hb hf
  | ull v =>
    have hm : m32 (v / 2 ^ 32) = v / 2 ^ 32 := Nat.mod_eq_of_lt (by simp only [BufSpec.Valid] at hv; omega)
    simp only [W.field, W.ull, W.int, W.int0, hm]
    exact two _ _ (Bytes.append.mp hb).1 (Bytes.append.mp hb).2 hf
  | bytes bs => exact two _ _ (Bytes.append.mp hb).1 (Bytes.append.mp hb).2 hf
  | literal bs => exact W.put_crc h hb hf

theorem W.fields_ok {fs : List Field} {w : W} (h : w.OK) (hv : ∀ f ∈ fs, BufSpec.Valid f) (hf : w.out.length + (BufSpec.layout fs).length ≤ w.size) :
    ∃ w', w.fields fs = .ok w' ∧ w'.OK ∧ w'.out = w.out ++ BufSpec.layout fs ∧ w'.size = w.size := by
  induction fs generalizing w with
  | nil => exact ⟨w, rfl, h, by simp [BufSpec.layout], rfl⟩
  | cons f fs ih =>
    simp only [BufSpec.layout, List.flatMap_cons, List.length_append] at hf
    obtain ⟨w1, e1, h1, o1, s1⟩ := W.field_ok h (hv f (by simp)) (by omega)
    obtain ⟨w2, e2, h2, o2, s2⟩ := ih (w := w1) h1 (fun f hf => hv f (by simp [hf])) (by rw [o1, s1, List.length_append, BufSpec.layout]; omega)
    exact ⟨w2, by rw [W.fields, e1, R.bind_ok, e2], h2, by rw [o2, o1, List.append_assoc]; rfl, by rw [s2, s1]⟩

theorem W.field0_ok {w : W} {f : Field} (hv : BufSpec.Valid f) (hf : w.out.length + (BufSpec.bytes f).length ≤ w.size) :
    w.field0 f = .ok { w with out := w.out ++ BufSpec.bytes f } := by
  have two : ∀ a b : List Nat, w.out.length + (a ++ b).length ≤ w.size → (do let w ← w.put a; w.put b) = R.ok { w with out := w.out ++ (a ++ b) } := by
    intro a b hl
    rw [List.length_append] at hl
    rw [W.put_ok (by omega), R.bind_ok, W.put_ok (by simp only [List.length_append]; omega)]
    simp only [List.append_assoc]
  cases f with
  | char b => simp only [W.field0, W.char0, BufSpec.bytes, List.length_cons, List.length_nil] at hf ⊢; rw [if_pos (by omega)]
  | bool b => simp only [W.field0, W.bool0, W.char0, BufSpec.bytes, List.length_cons, List.length_nil] at hf ⊢; rw [if_pos (by omega)]
  | networkInt v => simp only [W.field0, store_htonl]; exact W.put_ok hf
  | int v => exact W.put_ok hf
  | ull v =>
    have hm : m32 (v / 2 ^ 32) = v / 2 ^ 32 := Nat.mod_eq_of_lt (by simp only [BufSpec.Valid] at hv; omega)
    simp only [W.field0, W.ull0, W.int0, hm]
    exact two _ _ hf
  | bytes bs => exact two _ _ hf
  | literal bs => exact W.put_ok hf

theorem W.fields0_ok {fs : List Field} {w : W} (hv : ∀ f ∈ fs, BufSpec.Valid f) (hf : w.out.length + (BufSpec.layout fs).length ≤ w.size) :
    w.fields0 fs = .ok { w with out := w.out ++ BufSpec.layout fs } := by
  induction fs generalizing w with
  | nil => simp [W.fields0, BufSpec.layout]
  | cons f fs ih =>
    simp only [BufSpec.layout, List.flatMap_cons, List.length_append] at hf
    rw [W.fields0, W.field0_ok (hv f (by simp)) (by omega), R.bind_ok, ih (fun f hf => hv f (by simp [hf])) (by simp only [List.length_append, BufSpec.layout]; omega)]
    simp only [BufSpec.layout, List.flatMap_cons, List.append_assoc]

/-! ### Reading -/

theorem Rd.get_ok {pre bs post : List Nat} : Rd.get ⟨pre ++ (bs ++ post), pre.length⟩ bs.length = .ok (bs, ⟨pre ++ (bs ++ post), pre.length + bs.length⟩) := by
  have hl : pre.length + bs.length ≤ (pre ++ (bs ++ post)).length := by simp only [List.length_append]; omega
  unfold Rd.get m32
  simp only
  rw [if_pos (Nat.le_trans (Nat.mod_le _ _) hl), if_pos hl, List.drop_left, List.take_left]

theorem Rd.int_ok {pre post : List Nat} {v : Nat} (hv : v < 2 ^ 32) :
    Rd.int ⟨pre ++ (BufSpec.digits 4 v ++ post), pre.length⟩ = .ok (v, ⟨pre ++ (BufSpec.digits 4 v ++ post), pre.length + 4⟩) := by
  have := Rd.get_ok (pre := pre) (bs := BufSpec.digits 4 v) (post := post)
  rw [digits_length] at this
  unfold Rd.int
  rw [this, R.bind_ok]
  simp only [R.pure_ok]
  rw [le_digits, Nat.mod_eq_of_lt hv]

theorem Rd.field_ok {pre post : List Nat} {f : Field} (hv : BufSpec.Valid f) :
    Rd.field ⟨pre ++ (BufSpec.bytes f ++ post), pre.length⟩ f.kind = .ok (f, ⟨pre ++ (BufSpec.bytes f ++ post), pre.length + (BufSpec.bytes f).length⟩) := by
  have one : ∀ b : Nat, Rd.char ⟨pre ++ ([b] ++ post), pre.length⟩ = .ok (b, ⟨pre ++ ([b] ++ post), pre.length + 1⟩) := by
    intro b
    unfold Rd.char
    simp only
    rw [if_pos (by simp)]
    simp
  cases f with
  | char b =>
    simp only [Rd.field, Field.kind, BufSpec.bytes]
    rw [one b]; rfl
  | bool b =>
    simp only [Rd.field, Field.kind, BufSpec.bytes, Rd.bool]
    rw [one]
    cases b <;> rfl
  | networkInt v =>
    have := Rd.get_ok (pre := pre) (bs := (BufSpec.digits 4 v).reverse) (post := post)
    rw [List.length_reverse, digits_length] at this
    simp only [Rd.field, Field.kind, BufSpec.bytes, Rd.networkInt]
    rw [this, R.bind_ok]
    simp only [R.pure_ok, R.bind_ok]
    rw [htonl_le hv, List.length_reverse, digits_length]
  | int v =>
    simp only [Rd.field, Field.kind, BufSpec.bytes]
    rw [Rd.int_ok hv, R.bind_ok, digits_length]; rfl
  | ull v =>
    simp only [BufSpec.Valid] at hv
    simp only [Rd.field, Field.kind, BufSpec.bytes, Rd.ull]
    have h1 := Rd.int_ok (pre := pre) (v := v / 2 ^ 32) (post := BufSpec.digits 4 (v % 2 ^ 32) ++ post) (by omega)
    have h2 := Rd.int_ok (pre := pre ++ BufSpec.digits 4 (v / 2 ^ 32)) (v := v % 2 ^ 32) (post := post) (Nat.mod_lt _ (by omega))
    simp only [List.length_append, digits_length, List.append_assoc] at h1 h2 ⊢
    rw [h1, R.bind_ok]
    simp only [h2, R.bind_ok, R.pure_ok]
    rw [← Nat.shiftLeft_add_eq_or_of_lt (Nat.mod_lt v (by omega)), Nat.shiftLeft_eq, Nat.div_add_mod']
  | bytes bs =>
    simp only [Rd.field, Field.kind, BufSpec.bytes, Rd.bytes]
    have h1 := Rd.int_ok (pre := pre) (v := bs.length) (post := bs ++ post) hv.1
    have h2 := Rd.get_ok (pre := pre ++ BufSpec.digits 4 bs.length) (bs := bs) (post := post)
    simp only [List.length_append, digits_length, List.append_assoc] at h1 h2 ⊢
    rw [h1, R.bind_ok]
    simp only [h2, R.bind_ok, R.pure_ok]
    rw [Nat.add_assoc]
  | literal bs =>
    simp only [Rd.field, Field.kind, BufSpec.bytes, Rd.literal]
    rw [Rd.get_ok, R.bind_ok]; rfl

theorem Rd.fields_ok {fs : List Field} (hv : ∀ f ∈ fs, BufSpec.Valid f) (pre post : List Nat) :
    Rd.fields ⟨pre ++ (BufSpec.layout fs ++ post), pre.length⟩ (fs.map Field.kind) =
      .ok (fs, ⟨pre ++ (BufSpec.layout fs ++ post), pre.length + (BufSpec.layout fs).length⟩) := by
  induction fs generalizing pre with
  | nil => rfl
  | cons f fs ih =>
    have h1 := Rd.field_ok (pre := pre) (post := BufSpec.layout fs ++ post) (hv f (by simp))
    have h2 := ih (fun f hf => hv f (by simp [hf])) (pre ++ BufSpec.bytes f)
    simp only [List.map_cons, Rd.fields]
    rw [show BufSpec.layout (f :: fs) = BufSpec.bytes f ++ BufSpec.layout fs by simp [BufSpec.layout]]
    simp only [List.length_append, List.append_assoc] at h1 h2 ⊢
    rw [h1, R.bind_ok]
    simp only [h2, R.bind_ok, R.pure_ok, Nat.add_assoc]

end Verif.Ser

namespace Verif.Ser

/-! ### What does not fit -/

theorem W.put_abort {w : W} {bs : List Nat} (h : w.size < w.out.length + bs.length) (h2 : w.out.length + bs.length < 2 ^ 32) : w.put bs = .abort := by
  unfold W.put m32
  rw [Nat.mod_eq_of_lt h2, if_neg (by omega)]

theorem R.bind_abort {α β : Type} (f : α → R β) : ((R.abort : R α) >>= f) = R.abort := rfl
theorem R.bind_outside {α β : Type} (f : α → R β) : ((R.outside : R α) >>= f) = R.outside := rfl

theorem W.field_abort {w : W} {f : Field} (hv : BufSpec.Valid f) (hf : w.size < w.out.length + (BufSpec.bytes f).length) (h2 : w.out.length + (BufSpec.bytes f).length < 2 ^ 32) :
    w.field f = .abort := by
  have two : ∀ a b : List Nat, w.size < w.out.length + (a ++ b).length → w.out.length + (a ++ b).length < 2 ^ 32 →
      (do let w ← (do let w ← w.put a; pure (w.crc a)); (do let w ← w.put b; pure (w.crc b))) = R.abort := by
    intro a b h1 h2
    rw [List.length_append] at h1 h2
    by_cases ha : w.out.length + a.length ≤ w.size
    · rw [W.put_ok ha, R.bind_ok, R.pure_ok, R.bind_ok, W.put_abort (by simp only [W.crc, List.length_append]; omega) (by simp only [W.crc, List.length_append]; omega), R.bind_abort]
    · rw [W.put_abort (by omega) (by omega), R.bind_abort, R.bind_abort]
  have one : ∀ b : Nat, w.size < w.out.length + 1 → w.char b = .abort := by
    intro b h
    unfold W.char W.char0
    rw [if_neg (by omega), R.bind_abort]
  cases f with
  | char b => exact one _ hf
  | bool b => exact one _ hf
  | networkInt v => simp only [W.field, W.networkInt, store_htonl]; exact (congrArg (· >>= _) (W.put_abort hf h2))
  | int v => simp only [W.field, W.int, W.int0, store32_digits]; exact (congrArg (· >>= _) (W.put_abort hf h2))
  | ull v =>
    have hm : m32 (v / 2 ^ 32) = v / 2 ^ 32 := Nat.mod_eq_of_lt (by simp only [BufSpec.Valid] at hv; omega)
    simp only [W.field, W.ull, W.int, W.int0, hm]
    exact two _ _ hf h2
  | bytes bs => exact two _ _ hf h2
  | literal bs => simp only [W.field, W.literal, W.literal0]; exact (congrArg (· >>= _) (W.put_abort hf h2))

theorem W.fields_abort {fs : List Field} {w : W} (h : w.OK) (hv : ∀ f ∈ fs, BufSpec.Valid f) (hle : w.out.length ≤ w.size) (hf : w.size < w.out.length + (BufSpec.layout fs).length)
    (h2 : w.out.length + (BufSpec.layout fs).length < 2 ^ 32) : w.fields fs = .abort := by
  induction fs generalizing w with
  | nil => simp only [BufSpec.layout, List.flatMap_nil, List.length_nil] at hf; omega
  | cons f fs ih =>
    simp only [BufSpec.layout, List.flatMap_cons, List.length_append] at hf h2
    rw [W.fields]
    by_cases hfit : w.out.length + (BufSpec.bytes f).length ≤ w.size
    · obtain ⟨w1, e1, h1, o1, s1⟩ := W.field_ok h (hv f (by simp)) hfit
      rw [e1, R.bind_ok]
      exact ih h1 (fun f hf => hv f (by simp [hf])) (by rw [o1, s1, List.length_append]; exact hfit) (by rw [o1, s1, List.length_append, BufSpec.layout]; omega)
        (by rw [o1, List.length_append, BufSpec.layout]; omega)
    · rw [W.field_abort (hv f (by simp)) (by omega) (by omega), R.bind_abort]

/-! ### Reading what was not written -/

theorem Rd.get_cases (r : Rd) (n : Nat) (hr : r.ndone ≤ r.buf.length) :
    (r.get n = .abort) ∨ (r.get n = .outside ∧ 2 ^ 32 ≤ r.buf.length + n) ∨
      (r.ndone + n ≤ r.buf.length ∧ r.get n = .ok ((r.buf.drop r.ndone).take n, { r with ndone := r.ndone + n })) := by
  unfold Rd.get m32
  by_cases h1 : (r.ndone + n) % 2 ^ 32 ≤ r.buf.length
  · rw [if_pos h1]
    by_cases h2 : r.ndone + n ≤ r.buf.length
    · rw [if_pos h2]; exact Or.inr (Or.inr ⟨h2, rfl⟩)
    · rw [if_neg h2]
      refine Or.inr (Or.inl ⟨rfl, ?_⟩)
      have : 2 ^ 32 ≤ r.ndone + n := by
        apply Decidable.byContradiction
        intro h
        rw [Nat.mod_eq_of_lt (by omega)] at h1
        omega
      omega
  · rw [if_neg h1]; exact Or.inl rfl

/-- A length, as it can be found in the buffer or given by the caller, so large that its sum with the buffer size wraps. -/
def Wraps (buf : List Nat) (n : Nat) : Prop := ∃ i, i + 4 ≤ buf.length ∧ n = le ((buf.drop i).take 4) ∧ 2 ^ 32 ≤ buf.length + n

theorem Rd.int_cases (r : Rd) (hr : r.ndone ≤ r.buf.length) (hs : r.buf.length + 4 < 2 ^ 32) :
    (r.int = .abort) ∨ (r.ndone + 4 ≤ r.buf.length ∧ r.int = .ok (le ((r.buf.drop r.ndone).take 4), { r with ndone := r.ndone + 4 })) := by
  rcases r.get_cases 4 hr with h | ⟨h, h2⟩ | ⟨h, h2⟩
  · exact Or.inl (by simp only [Rd.int, h, R.bind_abort])
  · omega
  · exact Or.inr ⟨h, by simp only [Rd.int, h2, R.bind_ok]; rfl⟩

theorem Rd.field_cases (r : Rd) (k : Kind) (hr : r.ndone ≤ r.buf.length) (hs : r.buf.length + 4 < 2 ^ 32) :
    (r.field k = .abort) ∨ (r.field k = .outside ∧ ((∃ n, Wraps r.buf n) ∨ ∃ n, k = .literal n ∧ 2 ^ 32 ≤ r.buf.length + n)) ∨
      ∃ f m, r.field k = .ok (f, { r with ndone := m }) ∧ r.ndone ≤ m ∧ m ≤ r.buf.length := by
  have one : (r.char = .abort) ∨ ∃ b, r.char = .ok (b, { r with ndone := r.ndone + 1 }) ∧ r.ndone + 1 ≤ r.buf.length := by
    unfold Rd.char
    by_cases h : r.ndone < r.buf.length
    · rw [if_pos h, List.getElem?_eq_getElem h]
      exact Or.inr ⟨_, rfl, h⟩
    · rw [if_neg h]; exact Or.inl rfl
  cases k with
  | char =>
    rcases one with h | ⟨b, h, h2⟩
    · exact Or.inl (by simp only [Rd.field, h, R.bind_abort])
    · exact Or.inr (Or.inr ⟨_, _, by simp only [Rd.field, h, R.bind_ok, R.pure_ok]; rfl, by omega, h2⟩)
  | bool =>
    rcases one with h | ⟨b, h, h2⟩
    · exact Or.inl (by simp only [Rd.field, Rd.bool, h, R.bind_abort])
    · exact Or.inr (Or.inr ⟨_, _, by simp only [Rd.field, Rd.bool, h, R.bind_ok, R.pure_ok]; rfl, by omega, h2⟩)
  | networkInt =>
    rcases r.get_cases 4 hr with h | ⟨h, h2⟩ | ⟨h, h2⟩
    · exact Or.inl (by simp only [Rd.field, Rd.networkInt, h, R.bind_abort])
    · omega
    · exact Or.inr (Or.inr ⟨_, _, by simp only [Rd.field, Rd.networkInt, h2, R.bind_ok, R.pure_ok]; rfl, by omega, h⟩)
  | int =>
    rcases r.int_cases hr hs with h | ⟨h, h2⟩
    · exact Or.inl (by simp only [Rd.field, h, R.bind_abort])
    · exact Or.inr (Or.inr ⟨_, _, by simp only [Rd.field, h2, R.bind_ok, R.pure_ok]; rfl, by omega, h⟩)
  | ull =>
    rcases r.int_cases hr hs with h | ⟨h, h2⟩
    · exact Or.inl (by simp only [Rd.field, Rd.ull, h, R.bind_abort])
    · rcases Rd.int_cases { r with ndone := r.ndone + 4 } h hs with h3 | ⟨h3, h4⟩
      · exact Or.inl (by simp only [Rd.field, Rd.ull, h2, R.bind_ok, h3, R.bind_abort])
      · exact Or.inr (Or.inr ⟨_, _, by simp only [Rd.field, Rd.ull, h2, R.bind_ok, h4, R.pure_ok]; rfl, by simp only; omega, h3⟩)
  | bytes =>
    rcases r.int_cases hr hs with h | ⟨h, h2⟩
    · exact Or.inl (by simp only [Rd.field, Rd.bytes, h, R.bind_abort])
    · rcases Rd.get_cases { r with ndone := r.ndone + 4 } (le ((r.buf.drop r.ndone).take 4)) h with h3 | ⟨h3, h4⟩ | ⟨h3, h4⟩
      · exact Or.inl (by simp only [Rd.field, Rd.bytes, h2, R.bind_ok, h3, R.bind_abort])
      · exact Or.inr (Or.inl ⟨by simp only [Rd.field, Rd.bytes, h2, R.bind_ok, h3, R.bind_outside], Or.inl ⟨_, r.ndone, h, rfl, h4⟩⟩)
      · exact Or.inr (Or.inr ⟨_, _, by simp only [Rd.field, Rd.bytes, h2, R.bind_ok, h4, R.pure_ok]; rfl, by simp only; omega, h3⟩)
  | literal n =>
    rcases r.get_cases n hr with h | ⟨h, h2⟩ | ⟨h, h2⟩
    · exact Or.inl (by simp only [Rd.field, Rd.literal, h, R.bind_abort])
    · exact Or.inr (Or.inl ⟨by simp only [Rd.field, Rd.literal, h, R.bind_outside], Or.inr ⟨n, rfl, h2⟩⟩)
    · exact Or.inr (Or.inr ⟨_, _, by simp only [Rd.field, Rd.literal, h2, R.bind_ok, R.pure_ok]; rfl, by omega, h⟩)

theorem Rd.fields_cases (ks : List Kind) (r : Rd) (hr : r.ndone ≤ r.buf.length) (hs : r.buf.length + 4 < 2 ^ 32) :
    r.fields ks = .outside → (∃ n, Wraps r.buf n) ∨ ∃ n, Kind.literal n ∈ ks ∧ 2 ^ 32 ≤ r.buf.length + n := by
  induction ks generalizing r with
  | nil => intro h; cases h
  | cons k ks ih =>
    intro h
    rw [Rd.fields] at h
    rcases r.field_cases k hr hs with h1 | ⟨h1, h2 | ⟨n, h2, h3⟩⟩ | ⟨f, m, h1, h2, h3⟩
    · rw [h1, R.bind_abort] at h; cases h
    · exact Or.inl h2
    · exact Or.inr ⟨n, by simp [h2], h3⟩
    · rw [h1, R.bind_ok] at h
      simp only at h
      have hn : Rd.fields { r with ndone := m } ks = .outside := by
        cases hx : Rd.fields { r with ndone := m } ks with
        | ok a => rw [hx, R.bind_ok] at h; cases h
        | abort => rw [hx, R.bind_abort] at h; cases h
        | outside => rfl
      rcases ih { r with ndone := m } h3 hs hn with h4 | ⟨n, h4, h5⟩
      · exact Or.inl h4
      · exact Or.inr ⟨n, by simp [h4], h5⟩

end Verif.Ser
