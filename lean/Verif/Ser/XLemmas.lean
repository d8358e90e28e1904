import Verif.Ser.X1764
import Verif.Ser.XSpec

namespace Verif.Ser

def Bytes (l : List Nat) : Prop := ∀ b ∈ l, b < 256

theorem Bytes.append {a b : List Nat} : Bytes (a ++ b) ↔ Bytes a ∧ Bytes b := by
  unfold Bytes
  simp only [List.mem_append]
  constructor
  · intro h; exact ⟨fun x hx => h x (Or.inl hx), fun x hx => h x (Or.inr hx)⟩
  · rintro ⟨h1, h2⟩ x (hx | hx)
    · exact h1 x hx
    · exact h2 x hx

theorem Bytes.cons {a : Nat} {b : List Nat} : Bytes (a :: b) ↔ a < 256 ∧ Bytes b := by
  unfold Bytes
  simp

theorem Bytes.take {a : List Nat} (h : Bytes a) (n : Nat) : Bytes (a.take n) := fun b hb => h b (List.mem_of_mem_take hb)
theorem Bytes.drop {a : List Nat} (h : Bytes a) (n : Nat) : Bytes (a.drop n) := fun b hb => h b (List.mem_of_mem_drop hb)

theorem word_eq (l : List Nat) : XSpec.word l = le l := by
  induction l with
  | nil => rfl
  | cons b bs ih => simp only [XSpec.word, le, ih]

theorem le_append (a b : List Nat) : le (a ++ b) = le a + 256 ^ a.length * le b := by
  induction a with
  | nil => simp [le]
  | cons x xs ih =>
    simp only [List.cons_append, le, ih, List.length_cons, Nat.pow_succ]
    rw [Nat.mul_add, ← Nat.mul_assoc, Nat.mul_comm 256, Nat.mul_comm 256, Nat.add_assoc]

theorem le_lt {l : List Nat} (h : Bytes l) : le l < 256 ^ l.length := by
  induction l with
  | nil => simp [le]
  | cons x xs ih =>
    have := ih (Bytes.cons.mp h).2
    have hx := (Bytes.cons.mp h).1
    simp only [le, List.length_cons, Nat.pow_succ]
    omega

theorem p256 (n : Nat) : 256 ^ n = 2 ^ (8 * n) := by
  rw [show (256 : Nat) = 2 ^ 8 from rfl, ← Nat.pow_mul]

/-- Appending the bytes that still fit to the waiting bytes. -/
theorem absorb {r w : List Nat} (hr : Bytes r) (hw : Bytes w) (hn : r.length ≤ 8) :
    le r ||| m64 (le w <<< (8 * r.length)) = le (r ++ w.take (8 - r.length)) := by
  have hlt := le_lt hr
  have e : m64 (le w <<< (8 * r.length)) = le (w.take (8 - r.length)) <<< (8 * r.length) := by
    rw [Nat.shiftLeft_eq, Nat.shiftLeft_eq, m64]
    by_cases hl : w.length ≤ 8 - r.length
    · rw [List.take_of_length_le hl]
      apply Nat.mod_eq_of_lt
      have h1 := le_lt hw
      have h2 : 256 ^ w.length * 2 ^ (8 * r.length) ≤ 2 ^ 64 := by
        rw [p256, ← Nat.pow_add]
        exact Nat.pow_le_pow_right (by omega) (by omega)
      have h3 : le w * 2 ^ (8 * r.length) < 256 ^ w.length * 2 ^ (8 * r.length) := Nat.mul_lt_mul_of_pos_right h1 (Nat.pow_pos (by omega))
      omega
    · have hs : le w = le (w.take (8 - r.length)) + 256 ^ (8 - r.length) * le (w.drop (8 - r.length)) := by
        conv => lhs; rw [← List.take_append_drop (8 - r.length) w, le_append]
        rw [List.length_take, Nat.min_eq_left (by omega)]
      have hlt2 := le_lt (hw.take (8 - r.length))
      rw [List.length_take, Nat.min_eq_left (by omega)] at hlt2
      rw [hs, Nat.add_mul]
      have h64 : 256 ^ (8 - r.length) * 2 ^ (8 * r.length) = 2 ^ 64 := by
        rw [p256, ← Nat.pow_add]; congr 1; omega
      have e2 : 256 ^ (8 - r.length) * le (w.drop (8 - r.length)) * 2 ^ (8 * r.length) = 2 ^ 64 * le (w.drop (8 - r.length)) := by
        rw [← h64, Nat.mul_right_comm]
      rw [e2, Nat.add_mul_mod_self_left]
      apply Nat.mod_eq_of_lt
      rw [← h64]
      exact Nat.mul_lt_mul_of_pos_right hlt2 (Nat.pow_pos (by omega))
  rw [e, Nat.or_comm, ← Nat.shiftLeft_add_eq_or_of_lt (by rw [p256] at hlt; exact hlt), le_append, Nat.shiftLeft_eq, p256, Nat.add_comm, Nat.mul_comm]

theorem le_drop {w : List Nat} (hw : Bytes w) {k : Nat} (hk : k ≤ w.length) : le w >>> (8 * k) = le (w.drop k) := by
  have hs : le w = le (w.take k) + 256 ^ k * le (w.drop k) := by
    conv => lhs; rw [← List.take_append_drop k w, le_append]
    rw [List.length_take, Nat.min_eq_left hk]
  have hlt := le_lt (hw.take k)
  rw [List.length_take, Nat.min_eq_left hk] at hlt
  rw [Nat.shiftRight_eq_div_pow, ← p256, hs, Nat.add_mul_div_left _ _ (Nat.pow_pos (by omega)), Nat.div_eq_of_lt hlt, Nat.zero_add]

theorem absorb_fit {r w : List Nat} (hr : Bytes r) (hw : Bytes w) (hn : r.length + w.length ≤ 8) :
    le r ||| m64 (le w <<< (8 * r.length)) = le (r ++ w) := by
  rw [absorb hr hw (by omega), List.take_of_length_le (by omega)]

/-- The sum of the whole words. -/
def H (c : Nat) (bs : List Nat) : Nat := (wordLoop c bs).1

theorem wordLoop_eight (c : Nat) {w : List Nat} (hw : w.length = 8) (bs : List Nat) : wordLoop c (w ++ bs) = wordLoop (m64 (c * 17 + le w)) bs := by
  match w, hw with
  | [a, b, c, d, e, f, g, h], _ => rfl

theorem wordLoop_short (c : Nat) {w : List Nat} (hw : w.length < 8) : wordLoop c w = (c, w) := by
  match w, hw with
  | [], _ => rfl
  | [_], _ => rfl
  | [_, _], _ => rfl
  | [_, _, _], _ => rfl
  | [_, _, _, _], _ => rfl
  | [_, _, _, _, _], _ => rfl
  | [_, _, _, _, _, _], _ => rfl
  | [_, _, _, _, _, _, _], _ => rfl
  | _ :: _ :: _ :: _ :: _ :: _ :: _ :: _ :: _, h => simp at h; omega

theorem wordLoop_append (full : List Nat) : ∀ (c : Nat), full.length % 8 = 0 → ∀ bs, wordLoop c (full ++ bs) = wordLoop (H c full) bs := by
  induction hn : full.length using Nat.strongRecOn generalizing full with
  | ind n ih =>
    intro c hm bs
    by_cases h0 : full.length = 0
    · rw [List.length_eq_zero_iff.mp h0]; rfl
    · have h8 : 8 ≤ full.length := by omega
      have e : full = full.take 8 ++ full.drop 8 := (List.take_append_drop 8 full).symm
      have hl : (full.take 8).length = 8 := by rw [List.length_take]; omega
      conv => lhs; rw [e, List.append_assoc, wordLoop_eight _ hl]
      have hH : H c full = H (m64 (c * 17 + le (full.take 8))) (full.drop 8) := by
        unfold H
        conv => lhs; rw [e, wordLoop_eight _ hl]
      rw [hH]
      exact ih (full.drop 8).length (by rw [List.length_drop]; omega) _ rfl _ (by rw [List.length_drop]; omega) bs

theorem wordLoop_split (full rest : List Nat) (c : Nat) (hm : full.length % 8 = 0) (hr : rest.length < 8) : wordLoop c (full ++ rest) = (H c full, rest) := by
  rw [wordLoop_append full c hm, wordLoop_short _ hr]

theorem H_append (full bs : List Nat) (c : Nat) (hm : full.length % 8 = 0) : H c (full ++ bs) = H (H c full) bs := by
  unfold H; rw [wordLoop_append full c hm]; rfl

theorem H_eight (c : Nat) {w : List Nat} (hw : w.length = 8) : H c w = m64 (c * 17 + le w) := by
  unfold H
  have := wordLoop_eight c hw []
  rw [List.append_nil] at this
  rw [this]; rfl

theorem orBytes_eq {bs r : List Nat} (hr : Bytes r) (hb : Bytes bs) (hl : r.length + bs.length ≤ 8) : orBytes r.length (le r) bs = le (r ++ bs) := by
  induction bs generalizing r with
  | nil => simp [orBytes]
  | cons b bs ih =>
    rw [orBytes]
    have h1 := Bytes.cons.mp hb
    have hb1 : Bytes [b] := Bytes.cons.mpr ⟨h1.1, by simp [Bytes]⟩
    have := absorb_fit hr hb1 (by simp only [List.length_cons, List.length_nil] at hl ⊢; omega)
    rw [show le [b] = b by simp [le]] at this
    rw [this, show r.length + 1 = (r ++ [b]).length by simp]
    rw [ih (Bytes.append.mpr ⟨hr, hb1⟩) h1.2 (by simp only [List.length_append, List.length_cons, List.length_nil] at hl ⊢; omega)]
    simp

theorem orBytes_zero {bs : List Nat} (hb : Bytes bs) (hl : bs.length ≤ 8) : orBytes 0 0 bs = le bs := by
  have := orBytes_eq (r := []) (by simp [Bytes]) hb (by simpa using hl)
  simpa [le] using this

/-- The state after the bytes `bs`, of which up to eight wait. -/
def St (bs : List Nat) (sum input n : Nat) : Prop :=
  ∃ full rest, bs = full ++ rest ∧ full.length % 8 = 0 ∧ rest.length = n ∧ n ≤ 8 ∧ sum = H 0 full ∧ input = le rest

theorem St.zero : St [] 0 0 0 := ⟨[], [], rfl, rfl, rfl, by omega, rfl, rfl⟩

/-- Bytes that fit. -/
theorem St.fit {bs w : List Nat} {sum input n : Nat} (h : St bs sum input n) (hb : Bytes bs) (hw : Bytes w) (hl : n + w.length ≤ 8) :
    St (bs ++ w) sum (input ||| m64 (le w <<< (8 * n))) (n + w.length) := by
  obtain ⟨full, rest, h1, h2, h3, h4, h5, h6⟩ := h
  subst h1
  refine ⟨full, rest ++ w, by simp, h2, by simp [h3], hl, h5, ?_⟩
  rw [h6, ← h3]
  exact absorb_fit (Bytes.append.mp hb).2 hw (by omega)

/-- A full word. -/
theorem St.full {bs : List Nat} {sum input : Nat} (h : St bs sum input 8) : St bs (m64 (sum * 17 + input)) 0 0 := by
  obtain ⟨full, rest, h1, h2, h3, h4, h5, h6⟩ := h
  refine ⟨full ++ rest, [], by simp [h1], by simp only [List.length_append]; omega, rfl, by omega, ?_, rfl⟩
  rw [H_append _ _ _ h2, H_eight _ h3, h5, h6]

/-- Bytes that complete a word. -/
theorem St.over {bs w : List Nat} {sum input n : Nat} (h : St bs sum input n) (hb : Bytes bs) (hw : Bytes w) (hl : 8 ≤ n + w.length) (hl2 : n + w.length ≤ 16) :
    St (bs ++ w) (m64 (sum * 17 + (input ||| m64 (le w <<< (8 * n))))) (le w >>> (8 * (8 - n))) (n + w.length - 8) := by
  obtain ⟨full, rest, h1, h2, h3, h4, h5, h6⟩ := h
  subst h1
  refine ⟨full ++ (rest ++ w.take (8 - n)), w.drop (8 - n), by simp, ?_, by simp only [List.length_drop]; omega, by omega, ?_, le_drop hw (by omega)⟩
  · simp only [List.length_append, List.length_take]; omega
  · rw [H_append _ _ _ h2, H_eight _ (by simp only [List.length_append, List.length_take]; omega), h5, h6, ← h3, absorb (Bytes.append.mp hb).2 hw (by omega)]

theorem shiftLoop_st {n sum input : Nat} {bs w : List Nat} (h : St bs sum input n) (hb : Bytes bs) (hw : Bytes w) (hn : n ≤ 8) :
    ∃ w1 w2, w = w1 ++ w2 ∧ (shiftLoop n sum input w).2.2 = w2 ∧ w2.length < 8 ∧ St (bs ++ w1) (shiftLoop n sum input w).1 (shiftLoop n sum input w).2.1 n := by
  induction hl : w.length using Nat.strongRecOn generalizing w bs sum input with
  | ind k ih =>
    by_cases h8 : w.length < 8
    · refine ⟨[], w, rfl, ?_⟩
      have : shiftLoop n sum input w = (sum, input, w) := by
        match w, h8 with
        | [], _ => rfl
        | [_], _ => rfl
        | [_, _], _ => rfl
        | [_, _, _], _ => rfl
        | [_, _, _, _], _ => rfl
        | [_, _, _, _, _], _ => rfl
        | [_, _, _, _, _, _], _ => rfl
        | [_, _, _, _, _, _, _], _ => rfl
        | _ :: _ :: _ :: _ :: _ :: _ :: _ :: _ :: _, h => simp at h; omega
      rw [this]
      exact ⟨rfl, h8, by simpa using h⟩
    · match w, h8 with
      | b0 :: b1 :: b2 :: b3 :: b4 :: b5 :: b6 :: b7 :: rest, _ =>
        have hw8 : Bytes [b0, b1, b2, b3, b4, b5, b6, b7] ∧ Bytes rest := (Bytes.append (a := [b0, b1, b2, b3, b4, b5, b6, b7])).mp hw
        have hs := h.over hb hw8.1 (by simp) (by simp only [List.length_cons, List.length_nil]; omega)
        simp only [List.length_cons, List.length_nil, show n + (0 + 1 + 1 + 1 + 1 + 1 + 1 + 1 + 1) - 8 = n by omega] at hs
        obtain ⟨w1, w2, e1, e2, e3, e4⟩ := ih rest.length (by simp only [← hl, List.length_cons]; omega) hs (Bytes.append.mpr ⟨hb, hw8.1⟩) hw8.2 rfl
        refine ⟨[b0, b1, b2, b3, b4, b5, b6, b7] ++ w1, w2, by rw [e1]; rfl, e2, e3, ?_⟩
        rw [← List.append_assoc]
        exact e4
      | [], h => simp at h
      | [_], h => simp at h
      | [_, _], h => simp at h
      | [_, _, _], h => simp at h
      | [_, _, _, _], h => simp at h
      | [_, _, _, _, _], h => simp at h
      | [_, _, _, _, _, _], h => simp at h
      | [_, _, _, _, _, _, _], h => simp at h

theorem step4_st {n sum input : Nat} {bs w : List Nat} (h : St bs sum input n) (hb : Bytes bs) (hw : Bytes w) (hn : n < 8) (hl : w.length < 8) :
    ∃ w1 w2, w = w1 ++ w2 ∧ (step4 sum input n w).2.2.2 = w2 ∧ w2.length < 4 ∧ (step4 sum input n w).2.2.1 < 8 ∧
      St (bs ++ w1) (step4 sum input n w).1 (step4 sum input n w).2.1 (step4 sum input n w).2.2.1 := by
  match w, hl with
  | [], _ => exact ⟨[], [], rfl, rfl, by simp, hn, by simpa [step4] using h⟩
  | [a], _ => exact ⟨[], [a], rfl, rfl, by simp, hn, by simpa [step4] using h⟩
  | [a, b], _ => exact ⟨[], [a, b], rfl, rfl, by simp, hn, by simpa [step4] using h⟩
  | [a, b, c], _ => exact ⟨[], [a, b, c], rfl, rfl, by simp, hn, by simpa [step4] using h⟩
  | b0 :: b1 :: b2 :: b3 :: rest, hl =>
    have hw4 : Bytes [b0, b1, b2, b3] ∧ Bytes rest := (Bytes.append (a := [b0, b1, b2, b3])).mp hw
    refine ⟨[b0, b1, b2, b3], rest, rfl, ?_, by simp only [List.length_cons] at hl; omega, ?_, ?_⟩
    · unfold step4; simp only; split <;> rfl
    · unfold step4; simp only; split <;> simp only <;> omega
    · unfold step4
      simp only
      split
      · rename_i h4
        exact h.fit hb hw4.1 (by simp only [List.length_cons, List.length_nil]; omega)
      · rename_i h4
        have := h.over hb hw4.1 (by simp only [List.length_cons, List.length_nil]; omega) (by simp only [List.length_cons, List.length_nil]; omega)
        simp only [List.length_cons, List.length_nil, show n + (0 + 1 + 1 + 1 + 1) - 8 = n - 4 by omega] at this
        exact this

theorem byteLoop_st {n sum input : Nat} {bs w : List Nat} (h : St bs sum input n) (hb : Bytes bs) (hw : Bytes w) (hn : n ≤ 8) :
    ∃ w1 w2, w = w1 ++ w2 ∧ (byteLoop input n w).2.2 = w2 ∧ (byteLoop input n w).2.1 ≤ 8 ∧ ((byteLoop input n w).2.1 < 8 → w2 = []) ∧
      St (bs ++ w1) sum (byteLoop input n w).1 (byteLoop input n w).2.1 := by
  induction w generalizing bs input n with
  | nil => exact ⟨[], [], rfl, rfl, hn, fun _ => rfl, by simpa [byteLoop] using h⟩
  | cons b w ih =>
    rw [byteLoop]
    have h1 := Bytes.cons.mp hw
    have hb1 : Bytes [b] := Bytes.cons.mpr ⟨h1.1, by simp [Bytes]⟩
    by_cases h8 : n < 8
    · rw [if_pos h8]
      have hf := h.fit hb hb1 (by simp only [List.length_cons, List.length_nil]; omega)
      simp only [List.length_cons, List.length_nil, Nat.zero_add, show le [b] = b by simp [le]] at hf
      obtain ⟨w1, w2, e1, e2, e3, e4, e5⟩ := ih hf (Bytes.append.mpr ⟨hb, hb1⟩) h1.2 (by omega)
      refine ⟨b :: w1, w2, by rw [e1]; rfl, e2, e3, e4, ?_⟩
      rw [show bs ++ b :: w1 = bs ++ [b] ++ w1 by simp]; exact e5
    · rw [if_neg h8]
      exact ⟨[], b :: w, rfl, rfl, hn, fun hh => absurd hh h8, by simpa using h⟩

theorem finishAdd_st {sum : Nat} {bs w : List Nat} (h : St bs sum 0 0) (hw : Bytes w) :
    St (bs ++ w) (finishAdd sum w).sum (finishAdd sum w).input (finishAdd sum w).n ∧ (finishAdd sum w).n < 8 := by
  obtain ⟨full, rest, h1, h2, h3, h4, h5, h6⟩ := h
  have hr : rest = [] := List.length_eq_zero_iff.mp h3
  subst hr
  simp only [List.append_nil] at h1
  subst h1
  obtain ⟨f, r, e1, e2, e3⟩ : ∃ f r, w = f ++ r ∧ f.length % 8 = 0 ∧ r.length < 8 :=
    ⟨w.take (w.length / 8 * 8), w.drop (w.length / 8 * 8), (List.take_append_drop _ _).symm, by rw [List.length_take]; omega, by rw [List.length_drop]; omega⟩
  subst e1
  have hws := wordLoop_split f r sum e2 e3
  unfold finishAdd
  simp only [hws]
  refine ⟨⟨bs ++ f, r, by simp, by simp only [List.length_append]; omega, rfl, by omega, ?_, ?_⟩, e3⟩
  · rw [H_append _ _ _ h2, h5]
  · exact orBytes_zero (Bytes.append.mp hw).2 (by omega)

/-- Every call of `add` continues the string. -/
theorem X.add_st {l : X} {bs w : List Nat} (h : St bs l.sum l.input l.n) (hn : l.n < 8) (hb : Bytes bs) (hw : Bytes w) :
    St (bs ++ w) (l.add w).sum (l.add w).input (l.add w).n ∧ (l.add w).n < 8 := by
  have general : St (bs ++ w) (if l.n = 0 then finishAdd l.sum w else
      let s := shiftLoop l.n l.sum l.input w
      let f := step4 s.1 s.2.1 l.n s.2.2
      let b := byteLoop f.2.1 f.2.2.1 f.2.2.2
      if b.2.1 < 8 then ⟨f.1, b.1, b.2.1⟩ else finishAdd (m64 (f.1 * 17 + b.1)) b.2.2 : X).sum (if l.n = 0 then finishAdd l.sum w else
      let s := shiftLoop l.n l.sum l.input w
      let f := step4 s.1 s.2.1 l.n s.2.2
      let b := byteLoop f.2.1 f.2.2.1 f.2.2.2
      if b.2.1 < 8 then ⟨f.1, b.1, b.2.1⟩ else finishAdd (m64 (f.1 * 17 + b.1)) b.2.2 : X).input (if l.n = 0 then finishAdd l.sum w else
      let s := shiftLoop l.n l.sum l.input w
      let f := step4 s.1 s.2.1 l.n s.2.2
      let b := byteLoop f.2.1 f.2.2.1 f.2.2.2
      if b.2.1 < 8 then ⟨f.1, b.1, b.2.1⟩ else finishAdd (m64 (f.1 * 17 + b.1)) b.2.2 : X).n ∧ (if l.n = 0 then finishAdd l.sum w else
      let s := shiftLoop l.n l.sum l.input w
      let f := step4 s.1 s.2.1 l.n s.2.2
      let b := byteLoop f.2.1 f.2.2.1 f.2.2.2
      if b.2.1 < 8 then ⟨f.1, b.1, b.2.1⟩ else finishAdd (m64 (f.1 * 17 + b.1)) b.2.2 : X).n < 8 := by
    by_cases h0 : l.n = 0
    · rw [if_pos h0]
      have hi : l.input = 0 := by
        obtain ⟨full, rest, h1, h2, h3, h4, h5, h6⟩ := h
        rw [h0] at h3
        rw [h6, List.length_eq_zero_iff.mp h3]; rfl
      rw [h0, hi] at h
      exact finishAdd_st h hw
    · rw [if_neg h0]
      simp only
      obtain ⟨a1, a2, e1, e2, e3, e4⟩ := shiftLoop_st h hb hw (by omega)
      subst e1
      have ha := Bytes.append.mp hw
      rw [e2]
      obtain ⟨b1, b2, f1, f2, f3, f4, f5⟩ := step4_st e4 (Bytes.append.mpr ⟨hb, ha.1⟩) ha.2 hn e3
      subst f1
      have hb12 := Bytes.append.mp ha.2
      rw [f2]
      obtain ⟨c1, c2, g1, g2, g3, g4, g5⟩ := byteLoop_st f5 (Bytes.append.mpr ⟨Bytes.append.mpr ⟨hb, ha.1⟩, hb12.1⟩) hb12.2 (by omega)
      subst g1
      have hc := Bytes.append.mp hb12.2
      by_cases h8 : (byteLoop (step4 (shiftLoop l.n l.sum l.input (a1 ++ (b1 ++ (c1 ++ c2)))).fst (shiftLoop l.n l.sum l.input (a1 ++ (b1 ++ (c1 ++ c2)))).snd.fst l.n (b1 ++ (c1 ++ c2))).2.1
          (step4 (shiftLoop l.n l.sum l.input (a1 ++ (b1 ++ (c1 ++ c2)))).fst (shiftLoop l.n l.sum l.input (a1 ++ (b1 ++ (c1 ++ c2)))).snd.fst l.n (b1 ++ (c1 ++ c2))).2.2.1 (c1 ++ c2)).2.1 < 8
      · rw [if_pos h8]
        have := g4 h8
        subst this
        refine ⟨?_, h8⟩
        simp only [List.append_nil, List.append_assoc] at g5 ⊢
        exact g5
      · rw [if_neg h8, g2]
        have h88 := Nat.le_antisymm g3 (by omega)
        rw [h88] at g5
        have := finishAdd_st g5.full hc.2
        simp only [List.append_assoc] at this ⊢
        exact this
  match w, hw, general with
  | [b], hw, _ =>
    have hf := h.fit hb hw (by simp only [List.length_cons, List.length_nil]; omega)
    simp only [List.length_cons, List.length_nil, Nat.zero_add, show le [b] = b by simp [le]] at hf
    simp only [X.add]
    split
    · rename_i h8
      rw [h8] at hf
      exact ⟨hf.full, by simp⟩
    · exact ⟨hf, by simp only; omega⟩
  | [b0, b1], hw, _ =>
    simp only [X.add]
    split
    · rename_i h7
      have := h.over hb hw (by simp only [List.length_cons, List.length_nil]; omega) (by simp only [List.length_cons, List.length_nil]; omega)
      simp only [h7, List.length_cons, List.length_nil] at this
      exact ⟨this, by simp⟩
    · split
      · rename_i h6
        have hf := h.fit hb hw (by simp only [List.length_cons, List.length_nil]; omega)
        simp only [h6, List.length_cons, List.length_nil] at hf
        exact ⟨hf.full, by simp⟩
      · have hf := h.fit hb hw (by simp only [List.length_cons, List.length_nil]; omega)
        exact ⟨hf, by simp only; omega⟩
  | [], _, general => exact general
  | _ :: _ :: _ :: _, _, general => exact general

end Verif.Ser
