import Verif.Qlz.Spec

namespace Verif.Qlz

theorem copy_length {off} : ∀ {n dst}, (copy dst off n).length = dst.length + n
  | 0, dst => rfl
  | n + 1, dst => by
    unfold copy; rw [copy_length, List.length_append]; simp; omega

theorem le4_rd {x : Nat} {rest} (h : x < 2 ^ 32) : rd 4 (le 4 x ++ rest) = x := by
  simp only [le, rd, List.cons_append, List.nil_append, List.headD_cons, List.tail_cons]
  omega

theorem le4_drop {x : Nat} {rest} : (le 4 x ++ rest).drop 4 = rest := by
  simp [le]

theorem dec_enc {off len rest} (h1 : 3 ≤ off) (h2 : off < 131071) (h3 : 3 ≤ len) (h4 : len ≤ 255) :
    decMatch (rd 4 (encMatch off len ++ rest)) = (off, len, (encMatch off len).length) := by
  unfold encMatch
  split
  · rename_i h
    simp only [le, rd, List.cons_append, List.nil_append, List.headD_cons, List.tail_cons, List.length_cons, List.length_nil]
    unfold decMatch
    rw [if_pos (by omega)]
    simp only [Prod.mk.injEq]; refine ⟨by omega, by omega, trivial⟩
  · split
    · rename_i _ h
      simp only [le, rd, List.cons_append, List.nil_append, List.headD_cons, List.tail_cons, List.length_cons, List.length_nil]
      unfold decMatch
      rw [if_neg (by omega), if_pos (by omega)]
      simp only [Prod.mk.injEq]; refine ⟨by omega, by omega, trivial⟩
    · split
      · simp only [le, rd, List.cons_append, List.nil_append, List.headD_cons, List.tail_cons, List.length_cons, List.length_nil]
        unfold decMatch
        rw [if_neg (by omega), if_neg (by omega), if_pos (by omega)]
        simp only [Prod.mk.injEq]; refine ⟨by omega, by omega, trivial⟩
      · split
        · simp only [le, rd, List.cons_append, List.nil_append, List.headD_cons, List.tail_cons, List.length_cons, List.length_nil]
          unfold decMatch
          rw [if_neg (by omega), if_neg (by omega), if_neg (by omega), if_pos (by omega)]
          simp only [Prod.mk.injEq]; refine ⟨by omega, by omega, trivial⟩
        · simp only [le, rd, List.cons_append, List.nil_append, List.headD_cons, List.tail_cons, List.length_cons, List.length_nil]
          unfold decMatch
          rw [if_neg (by omega), if_neg (by omega), if_neg (by omega), if_neg (by omega)]
          simp only [Prod.mk.injEq]; refine ⟨by omega, by omega, trivial⟩

theorem flag_lt (t : Tok) : t.flag ≤ 1 := by cases t <;> simp [Tok.flag]

theorem fmt_bounds : ∀ (ts : List Tok) (n : Nat), 2 ^ n ≤ (fmt ts n).1 ∧ (fmt ts n).1 < 2 ^ (n + 1)
  | [], n => ⟨Nat.le_refl _, by show 2 ^ n < 2 ^ (n + 1); rw [Nat.pow_succ]; have := Nat.two_pow_pos n; omega⟩
  | t :: ts, 0 => by simp [fmt]
  | t :: ts, n + 1 => by
    have := fmt_bounds ts n
    have hf := flag_lt t
    show 2 ^ (n + 1) ≤ 2 * (fmt ts n).1 + t.flag ∧ 2 * (fmt ts n).1 + t.flag < 2 ^ (n + 1 + 1)
    rw [Nat.pow_succ] at this ⊢
    rw [Nat.pow_succ 2 (n + 1), Nat.pow_succ]
    omega

theorem valid_le {size} : ∀ {ts dst}, Valid size dst ts → dst.length + ts.length ≤ size
  | [], dst, h => by have h : dst.length = size := h; simp [h]
  | .lit b :: ts, dst, h => by
    have := valid_le (ts := ts) (show Valid size (dst ++ [b]) ts from h)
    simp only [List.length_append, List.length_cons, List.length_nil] at this ⊢; omega
  | .mat off len :: ts, dst, h => by
    obtain ⟨_, _, _, h4, _, _, _, h⟩ := h
    have := valid_le h
    rw [copy_length] at this
    simp only [List.length_cons]; omega

/-- Behind a single byte at or after the last place for a copy there are only single bytes. -/
theorem valid_lits {size} : ∀ {ts dst}, Valid size dst ts → size < dst.length + 11 → ∃ l : List Nat, ts = l.map Tok.lit
  | [], _, _, _ => ⟨[], rfl⟩
  | .lit b :: ts, dst, h, hs => by
    obtain ⟨l, e⟩ := valid_lits (ts := ts) (show Valid size (dst ++ [b]) ts from h)
      (by simp only [List.length_append, List.length_cons, List.length_nil]; omega)
    exact ⟨b :: l, by rw [e]; rfl⟩
  | .mat off len :: ts, dst, h, hs => by
    obtain ⟨_, _, _, _, _, h6, _⟩ := h; omega

theorem fmt_lits : ∀ (l : List Nat) (n : Nat), (fmt (l.map Tok.lit) n).1 = 2 ^ n
  | [], n => rfl
  | b :: l, 0 => rfl
  | b :: l, n + 1 => by
    show 2 * (fmt (l.map Tok.lit) n).1 + 0 = _
    rw [fmt_lits l n, Nat.pow_succ]; omega

theorem last_lits {rest} : ∀ (l : List Nat) (n : Nat) (dst : List Nat), n ≤ 31 →
    last l.length (2 ^ n) ((fmt (l.map Tok.lit) n).2 ++ rest) dst = dst ++ l
  | [], n, dst, _ => by simp [last]
  | b :: l, 0, dst, _ => by
    simp only [List.length_cons, last, Nat.pow_zero, if_true, List.map_cons, fmt]
    rw [List.append_assoc, le4_drop]
    simp only [Tok.enc, List.cons_append, List.nil_append, List.tail_cons, List.headD_cons]
    have := last_lits (rest := rest) l 30 (dst ++ [b]) (by omega)
    rw [show (2 ^ 31 / 2 : Nat) = 2 ^ 30 by decide, this]
    simp
  | b :: l, n + 1, dst, hn => by
    have h1 : ¬ (2 ^ (n + 1) = 1) := by rw [Nat.pow_succ]; have := Nat.two_pow_pos n; omega
    simp only [List.length_cons, last, if_neg h1, List.map_cons, fmt]
    simp only [Tok.enc, List.cons_append, List.nil_append, List.tail_cons, List.headD_cons]
    have := last_lits (rest := rest) l n (dst ++ [b]) (by omega)
    rw [show 2 ^ (n + 1) / 2 = 2 ^ n by rw [Nat.pow_succ]; omega, this]
    simp

theorem expand_lits : ∀ (l dst : List Nat), expand dst (l.map Tok.lit) = dst ++ l
  | [], dst => by simp [expand]
  | b :: l, dst => by simp [expand, expand_lits l]

theorem valid_lits_length {size} : ∀ (l dst : List Nat), Valid size dst (l.map Tok.lit) ↔ dst.length + l.length = size
  | [], dst => by simp [Valid]
  | b :: l, dst => by
    show Valid size (dst ++ [b]) (l.map Tok.lit) ↔ _
    rw [valid_lits_length l]
    simp only [List.length_append, List.length_cons, List.length_nil]; omega

/-- Several single bytes at once. -/
theorem chunk {size rest} : ∀ (k : Nat) (ts : List Tok) (n : Nat) (dst : List Nat), Valid size dst ts →
    (∀ i, i < k → (fmt ts n).1 / 2 ^ i % 2 = 0) → dst.length + k ≤ size →
    ∃ ts' n', n' ≤ n ∧ (fmt ts n).1 / 2 ^ k = (fmt ts' n').1 ∧ ((fmt ts n).2 ++ rest).drop k = (fmt ts' n').2 ++ rest ∧
      Valid size (dst ++ ((fmt ts n).2 ++ rest).take k) ts' ∧
      expand (dst ++ ((fmt ts n).2 ++ rest).take k) ts' = expand dst ts ∧ ts'.length + k = ts.length ∧
      (((fmt ts n).2 ++ rest).take k).length = k
  | 0, ts, n, dst, hv, _, _ => ⟨ts, n, Nat.le_refl _, by simp, by simp, by simpa using hv, by simp, rfl, by simp⟩
  | k + 1, ts, n, dst, hv, hz, hs => by
    have h0 := hz 0 (by omega)
    rw [Nat.pow_zero, Nat.div_one] at h0
    cases ts with
    | nil => have hv : dst.length = size := hv; omega
    | cons t ts =>
      cases n with
      | zero => simp [fmt] at h0
      | succ n =>
        cases t with
        | mat off len => simp only [fmt, Tok.flag] at h0; omega
        | lit b =>
          have hz' : ∀ i, i < k → (fmt ts n).1 / 2 ^ i % 2 = 0 := by
            intro i hi
            have := hz (i + 1) (by omega)
            simp only [fmt, Tok.flag] at this
            rw [Nat.pow_succ, Nat.mul_comm (2 ^ i), ← Nat.div_div_eq_div_mul] at this
            rw [show (2 * (fmt ts n).1 + 0) / 2 = (fmt ts n).1 by omega] at this
            exact this
          obtain ⟨ts', n', h1, h2, h3, h4, h5, h6, h7⟩ := chunk (rest := rest) k ts n (dst ++ [b]) hv hz'
            (by simp only [List.length_append, List.length_cons, List.length_nil]; omega)
          refine ⟨ts', n', by omega, ?_, ?_, ?_, ?_, ?_, ?_⟩
          · simp only [fmt, Tok.flag]
            rw [Nat.pow_succ, Nat.mul_comm (2 ^ k), ← Nat.div_div_eq_div_mul,
              show (2 * (fmt ts n).1 + 0) / 2 = (fmt ts n).1 by omega]
            exact h2
          · exact h3
          · simpa [fmt, Tok.enc] using h4
          · simp only [fmt, Tok.enc, List.cons_append, List.nil_append, List.take_succ_cons]
            simp only [expand]
            rw [← h5]; simp
          · simp only [List.length_cons]; omega
          · simp only [fmt, Tok.enc, List.cons_append, List.nil_append, List.take_succ_cons, List.length_cons, h7]

theorem bitlut_le {c : Nat} : bitlut (c % 16) ≤ 4 := by unfold bitlut; (repeat' split) <;> omega

theorem bitlut_pos {c : Nat} (h : c % 2 = 0) : 1 ≤ bitlut (c % 16) := by
  unfold bitlut; rw [if_neg (by omega)]; (repeat' split) <;> omega

theorem bitlut_zero {c i : Nat} (h : i < bitlut (c % 16)) : c / 2 ^ i % 2 = 0 := by
  have h4 := bitlut_le (c := c)
  have hi : i < 4 := by omega
  unfold bitlut at h
  have : i = 0 ∨ i = 1 ∨ i = 2 ∨ i = 3 := by omega
  rcases this with e | e | e | e <;> subst e <;> revert h <;> (repeat' split) <;> omega

theorem decode_fmt {size rest} : ∀ (fuel : Nat) (ts : List Tok) (n : Nat) (dst : List Nat), ts.length < fuel → n ≤ 31 →
    Valid size dst ts → dst.length < size →
    decode size fuel (fmt ts n).1 ((fmt ts n).2 ++ rest) dst = some (expand dst ts)
  | 0, _, _, _, h, _, _, _ => by omega
  | fuel + 1, ts, n, dst, hf, hn, hv, hd => by
    cases ts with
    | nil => have hv : dst.length = size := hv; omega
    | cons t ts =>
      -- after a control word was read, if it was needed
      have key : ∀ m, m ≤ 30 → (if (fmt (t :: ts) n).1 = 1
            then (rd 4 ((fmt (t :: ts) n).2 ++ rest), ((fmt (t :: ts) n).2 ++ rest).drop 4)
            else ((fmt (t :: ts) n).1, (fmt (t :: ts) n).2 ++ rest)) =
            (2 * (fmt ts m).1 + t.flag, t.enc ++ ((fmt ts m).2 ++ rest)) →
          decode size (fuel + 1) (fmt (t :: ts) n).1 ((fmt (t :: ts) n).2 ++ rest) dst = some (expand dst (t :: ts)) := by
        intro m hm hc
        unfold decode
        simp only [hc]
        cases t with
        | mat off len =>
          obtain ⟨v1, v2, v3, v4, v5, v6, v7, v8⟩ := hv
          rw [if_pos (show (2 * (fmt ts m).1 + Tok.flag (.mat off len)) % 2 = 1 by simp only [Tok.flag]; omega)]
          simp only [Tok.flag, Tok.enc]
          rw [dec_enc v1 v3 v4 v5]
          simp only [List.drop_left]
          rw [show (2 * (fmt ts m).1 + 1) / 2 = (fmt ts m).1 by omega]
          rw [decode_fmt fuel ts m _ (by simp only [List.length_cons] at hf; omega) (by omega) v8 (by rw [copy_length]; omega)]
          rfl
        | lit b =>
          have e1 : 2 * (fmt ts m).1 + Tok.flag (.lit b) = (fmt (.lit b :: ts) (m + 1)).1 := rfl
          have e2 : Tok.enc (.lit b) ++ ((fmt ts m).2 ++ rest) = (fmt (.lit b :: ts) (m + 1)).2 ++ rest := rfl
          rw [e1, e2]
          have hev : (fmt (.lit b :: ts) (m + 1)).1 % 2 = 0 := by simp only [fmt, Tok.flag]; omega
          rw [if_neg (by omega)]
          by_cases hs : dst.length + 11 < size
          · rw [if_pos hs]
            have hb4 := bitlut_le (c := (fmt (.lit b :: ts) (m + 1)).1)
            have hb1 := bitlut_pos hev
            obtain ⟨ts', n', h1, h2, h3, h4, h5, h6, h7⟩ := chunk (rest := rest) (bitlut ((fmt (.lit b :: ts) (m + 1)).1 % 16))
              (.lit b :: ts) (m + 1) dst hv (fun i hi => bitlut_zero hi) (by omega)
            rw [h2, h3, decode_fmt fuel ts' n' _ (by simp only [List.length_cons] at hf h6; omega) (by omega) h4
              (by rw [List.length_append, h7]; omega), h5]
          · rw [if_neg hs]
            have hv' : Valid size (dst ++ [b]) ts := hv
            obtain ⟨l, e⟩ := valid_lits hv' (by simp only [List.length_append, List.length_cons, List.length_nil]; omega)
            subst e
            have hl : Valid size dst ((b :: l).map Tok.lit) := hv
            rw [valid_lits_length] at hl
            have e3 : (fmt (.lit b :: l.map Tok.lit) (m + 1)).1 = 2 ^ (m + 1) := fmt_lits (b :: l) (m + 1)
            rw [e3, show size - dst.length = (b :: l).length by omega]
            have := last_lits (rest := rest) (b :: l) (m + 1) dst (by omega)
            rw [List.map_cons] at this
            rw [this]
            have e4 := expand_lits (b :: l) dst
            rw [List.map_cons] at e4
            rw [e4]
      cases n with
      | zero =>
        refine key 30 (by omega) ?_
        have hb := fmt_bounds ts 30
        have hfl := flag_lt t
        simp only [fmt, if_true]
        rw [List.append_assoc, le4_rd (by omega), le4_drop, List.append_assoc]
      | succ n =>
        refine key n (by omega) ?_
        have hb := fmt_bounds (t :: ts) (n + 1)
        have h2 : 2 ≤ 2 ^ (n + 1) := by rw [Nat.pow_succ]; have := Nat.two_pow_pos n; omega
        rw [if_neg (by omega)]
        simp only [fmt, List.append_assoc]

end Verif.Qlz
