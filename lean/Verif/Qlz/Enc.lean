import Verif.Qlz.Lemmas

namespace Verif.Qlz

/-! ## The search -/

theorem at1_lt {s p} (h : Bytes s) : at1 s p < 256 := by
  unfold at1
  rw [List.getD_eq_getElem?_getD]
  cases e : s[p]? with
  | none => simp
  | some b => exact h b (List.mem_of_getElem? e)

theorem at3_eq {s o p} (h : Bytes s) (e : at3 s o = at3 s p) : ∀ i, i < 3 → at1 s (o + i) = at1 s (p + i) := by
  have a0 := at1_lt (p := o) h
  have a1 := at1_lt (p := o + 1) h
  have a2 := at1_lt (p := o + 2) h
  have b0 := at1_lt (p := p) h
  have b1 := at1_lt (p := p + 1) h
  have b2 := at1_lt (p := p + 2) h
  unfold at3 at e
  intro i hi
  have : i = 0 ∨ i = 1 ∨ i = 2 := by omega
  rcases this with c | c | c <;> subst c <;> (try simp only [Nat.add_zero]) <;> omega

theorem extend_ok {s o p lim} : ∀ (fuel m : Nat), m ≤ lim → (∀ i, i < m → at1 s (o + i) = at1 s (p + i)) →
    extend s o p lim fuel m ≤ lim ∧ ∀ i, i < extend s o p lim fuel m → at1 s (o + i) = at1 s (p + i)
  | 0, m, h, e => ⟨h, e⟩
  | fuel + 1, m, h, e => by
    unfold extend
    by_cases hc : at1 s (o + m) = at1 s (p + m) ∧ m < lim
    · rw [if_pos hc]
      refine extend_ok fuel (m + 1) (by omega) ?_
      intro i hi
      by_cases c : i = m
      · subst c; exact hc.1
      · exact e i (by omega)
    · rw [if_neg hc]; exact ⟨h, e⟩

/-- A match that was found is one. -/
def Found (s : List Nat) (p lim : Nat) (b : Nat × Nat) : Prop :=
  2 < b.2 → b.1 + 2 < p ∧ b.2 ≤ lim ∧ ∀ i, i < b.2 → at1 s (b.1 + i) = at1 s (p + i)

theorem first_ok {s t p h lim} (hb : Bytes s) (hl : 4 ≤ lim) : Found s p lim (first s t p h lim) := by
  unfold first
  simp only
  split
  · rename_i hc
    intro _
    refine ⟨hc.1, ?_⟩
    have e3 := at3_eq hb hc.2.2
    by_cases c : at1 s (t.off h 0 + 3) = at1 s (p + 3)
    · simp only [if_pos c]
      refine extend_ok 255 4 hl ?_
      intro i hi
      by_cases c3 : i = 3
      · subst c3; exact c
      · exact e3 i (by omega)
    · simp only [if_neg c]
      exact ⟨by omega, e3⟩
  · intro h; simp at h

theorem better_ok {s t p h lim b k} (hb : Bytes s) (hl : 4 ≤ lim) (f : Found s p lim b) : Found s p lim (better s t p h lim b k) := by
  unfold better
  simp only
  split
  · rename_i hc
    split
    · intro _
      exact ⟨hc.2, extend_ok 255 3 (by omega) (at3_eq hb hc.1)⟩
    · exact f
  · exact f

theorem search_ok {s t p h} (hb : Bytes s) (hp : p + 11 ≤ s.length) :
    Found s p (min 255 (s.length - 4 - p)) (search s t p h) := by
  unfold search
  simp only
  have hl : 4 ≤ min 255 (s.length - 4 - p) := by omega
  have : ∀ (l : List Nat) (b : Nat × Nat), Found s p (min 255 (s.length - 4 - p)) b →
      Found s p (min 255 (s.length - 4 - p))
        (l.foldl (fun b k => if k < t.cnt h then better s t p h (min 255 (s.length - 4 - p)) b k else b) b) := by
    intro l
    induction l with
    | nil => intro b f; exact f
    | cons k l ih =>
      intro b f
      simp only [List.foldl_cons]
      apply ih
      split
      · exact better_ok hb hl f
      · exact f
  exact this _ _ (first_ok hb hl)

theorem take_lit {s : List Nat} {p} (h : p < s.length) : s.take p ++ [at1 s p] = s.take (p + 1) := by
  unfold at1
  rw [List.getD_eq_getElem?_getD, List.getElem?_eq_getElem h, Option.getD_some, List.take_add_one, List.getElem?_eq_getElem h]
  rfl

theorem copy_take {s : List Nat} {off} (h1 : 1 ≤ off) : ∀ (n p : Nat), off ≤ p → p + n ≤ s.length →
    (∀ i, i < n → at1 s (p - off + i) = at1 s (p + i)) → copy (s.take p) off n = s.take (p + n)
  | 0, _, _, _, _ => rfl
  | n + 1, p, h2, h3, e => by
    unfold copy
    have hl : (s.take p).length = p := by rw [List.length_take]; omega
    have e0 := e 0 (by omega)
    rw [Nat.add_zero, Nat.add_zero] at e0
    have : (s.take p).getD ((s.take p).length - off) 0 = at1 s p := by
      rw [hl, ← e0]; unfold at1
      rw [List.getD_eq_getElem?_getD, List.getD_eq_getElem?_getD, List.getElem?_take_of_lt (by omega)]
    rw [this, take_lit (by omega), copy_take h1 n (p + 1) (by omega) (by omega)]
    · congr 1; omega
    · intro i hi
      have := e (i + 1) (by omega)
      rw [show p + 1 - off + i = p - off + (i + 1) by omega, show p + 1 + i = p + (i + 1) by omega]
      exact this

/-! ## The control words -/

/-- The open control word has `k` marks, together `F`. -/
structure Wf (w : W) (k F : Nat) : Prop where
  le : k ≤ 31
  lt : F < 2 ^ k
  cw : w.cw = 2 ^ (31 - k) * (1 + 2 * F)

/-- What the destination will be when `ts` has been written as well. -/
def final (w : W) (k F : Nat) (ts : List Tok) : List Nat :=
  w.out ++ (Verif.Qlz.le 4 (F + 2 ^ k * (fmt ts (31 - k)).1) ++ (w.grp ++ (fmt ts (31 - k)).2))

theorem shift_eq {F} : ∀ (n j : Nat), j < n → shift n (2 ^ j * (1 + 2 * F)) = 1 + 2 * F
  | 0, _, h => by omega
  | n + 1, 0, _ => by unfold shift; rw [if_pos (by omega)]; omega
  | n + 1, j + 1, h => by
    unfold shift
    have e : 2 ^ (j + 1) * (1 + 2 * F) = 2 * (2 ^ j * (1 + 2 * F)) := by rw [Nat.pow_succ, Nat.mul_comm (2 ^ j), Nat.mul_assoc]
    rw [e, if_neg (by omega), Nat.mul_div_cancel_left _ (by omega)]
    exact shift_eq n j (by omega)

theorem fin_eq {w k F} (h : Wf w k F) :
    w.out ++ Verif.Qlz.le 4 (shift 32 w.cw / 2 + 2 ^ 31) ++ w.grp = final w k F [] := by
  have hk := h.le
  unfold final
  rw [h.cw, shift_eq 32 _ (by omega)]
  show _ = w.out ++ (Verif.Qlz.le 4 (F + 2 ^ k * 2 ^ (31 - k)) ++ (w.grp ++ []))
  rw [← Nat.pow_add, show k + (31 - k) = 31 by omega, show (1 + 2 * F) / 2 = F by omega, List.append_nil, List.append_assoc]

theorem odd_iff {w k F} (h : Wf w k F) : w.cw % 2 = 1 ↔ k = 31 := by
  have hk := h.le
  rw [h.cw]
  by_cases c : k = 31
  · subst c; simp
  · have : 31 - k = (30 - k) + 1 := by omega
    rw [this, Nat.pow_succ, Nat.mul_comm (2 ^ _), Nat.mul_assoc]
    omega

theorem flush_wf {w k F} (h : Wf w k F) (hk : k = 31) : Wf w.flush 0 0 ∧
    ∀ t ts, final w.flush 0 0 (t :: ts) = final w k F (t :: ts) := by
  subst hk
  refine ⟨⟨by omega, by decide, rfl⟩, ?_⟩
  intro t ts
  have hc : w.cw = 1 + 2 * F := by rw [h.cw]; simp
  unfold final
  simp only [W.flush]
  show (w.out ++ Verif.Qlz.le 4 (w.cw / 2 + 2 ^ 31) ++ w.grp) ++
      (Verif.Qlz.le 4 (0 + 2 ^ 0 * (2 * (fmt ts 30).1 + t.flag)) ++ ([] ++ (t.enc ++ (fmt ts 30).2))) =
    w.out ++ (Verif.Qlz.le 4 (F + 2 ^ 31 * 1) ++ (w.grp ++
      (Verif.Qlz.le 4 (2 * (fmt ts 30).1 + t.flag) ++ (t.enc ++ (fmt ts 30).2))))
  rw [hc, show (1 + 2 * F) / 2 = F by omega, Nat.mul_one, Nat.pow_zero, Nat.one_mul, Nat.zero_add, List.nil_append]
  simp only [List.append_assoc]

theorem half {k F} (hk : k < 31) : 2 ^ (31 - k) * (1 + 2 * F) / 2 = 2 ^ (31 - (k + 1)) * (1 + 2 * F) := by
  rw [show 31 - k = (31 - (k + 1)) + 1 by omega, Nat.pow_succ, Nat.mul_comm (2 ^ _) 2, Nat.mul_assoc,
    Nat.mul_div_cancel_left _ (by omega)]

theorem lit_wf {w k F b} (h : Wf w k F) (hk : k < 31) : Wf (w.lit b) (k + 1) F ∧
    ∀ ts, final (w.lit b) (k + 1) F ts = final w k F (.lit b :: ts) := by
  refine ⟨⟨by omega, ?_, ?_⟩, ?_⟩
  · rw [Nat.pow_succ]; have := h.lt; omega
  · show w.cw / 2 = _
    rw [h.cw, half hk]
  · intro ts
    unfold final
    rw [show 31 - k = (31 - (k + 1)) + 1 by omega]
    simp only [fmt, W.lit, Tok.flag, Tok.enc]
    rw [Nat.pow_succ, Nat.mul_assoc]
    simp only [List.append_assoc, Nat.add_zero]

theorem mat_wf {w k F off len} (h : Wf w k F) (hk : k < 31) : Wf (w.mat off len) (k + 1) (F + 2 ^ k) ∧
    ∀ ts, final (w.mat off len) (k + 1) (F + 2 ^ k) ts = final w k F (.mat off len :: ts) := by
  refine ⟨⟨by omega, ?_, ?_⟩, ?_⟩
  · rw [Nat.pow_succ]; have := h.lt; omega
  · show w.cw / 2 + 2 ^ 31 = _
    rw [h.cw, half hk]
    have e : 2 ^ (31 - (k + 1)) * (2 * 2 ^ k) = 2 ^ 31 := by
      rw [Nat.mul_comm 2, ← Nat.pow_succ, ← Nat.pow_add]; congr 1; omega
    rw [show 1 + 2 * (F + 2 ^ k) = (1 + 2 * F) + 2 * 2 ^ k by omega, Nat.mul_add _ (1 + 2 * F), e]
  · intro ts
    unfold final
    rw [show 31 - k = (31 - (k + 1)) + 1 by omega]
    simp only [fmt, W.mat, Tok.flag, Tok.enc]
    rw [show F + 2 ^ k * (2 * (fmt ts (31 - (k + 1))).1 + 1) = F + 2 ^ k + 2 ^ (k + 1) * (fmt ts (31 - (k + 1))).1 by
      rw [Nat.pow_succ, Nat.mul_add, Nat.mul_assoc]; omega]
    simp only [List.append_assoc]

/-- Room for one more. -/
theorem room {w k F} (h : Wf w k F) : ∃ k' F', k' < 31 ∧ Wf (if w.cw % 2 = 1 then w.flush else w) k' F' ∧
    ∀ t ts, final (if w.cw % 2 = 1 then w.flush else w) k' F' (t :: ts) = final w k F (t :: ts) := by
  by_cases c : w.cw % 2 = 1
  · rw [if_pos c]
    have := flush_wf h ((odd_iff h).1 c)
    exact ⟨0, 0, by omega, this.1, this.2⟩
  · rw [if_neg c]
    have hk := h.le
    have : k ≠ 31 := fun e => c ((odd_iff h).2 e)
    exact ⟨k, F, by omega, h, fun _ _ => rfl⟩

theorem tail_ok : ∀ (l : List Nat) {w : W} {k F : Nat}, Wf w k F →
    ∃ k' F', Wf (tail w l) k' F' ∧ final (tail w l) k' F' [] = final w k F (l.map Tok.lit)
  | [], w, k, F, h => ⟨k, F, h, rfl⟩
  | b :: l, w, k, F, h => by
    obtain ⟨k1, F1, hk1, h1, e1⟩ := room h
    obtain ⟨h2, e2⟩ := lit_wf (b := b) h1 hk1
    obtain ⟨k', F', h3, e3⟩ := tail_ok l h2
    refine ⟨k', F', h3, ?_⟩
    unfold tail
    rw [e3, e2, e1]; rfl

theorem loop_ok {s : List Nat} (hb : Bytes s) : ∀ (fuel p : Nat) (t : Tab) (w w' : W) (k F : Nat), Wf w k F → p ≤ s.length →
    loop s fuel p t w = some w' →
    ∃ k' F' ts, Wf w' k' F' ∧ final w' k' F' [] = final w k F ts ∧ Valid s.length (s.take p) ts ∧ expand (s.take p) ts = s
  | 0, _, _, _, _, _, _, _, _, e => by cases e
  | fuel + 1, p, t, w, w', k, F, h, hp, e => by
    unfold loop at e
    have hl : (s.take p).length = p := by rw [List.length_take]; omega
    by_cases c1 : p + 11 ≤ s.length
    · rw [if_pos c1] at e
      split at e
      · cases e
      · obtain ⟨k1, F1, hk1, h1, e1⟩ := room h
        simp only at e
        split at e
        · rename_i hm
          obtain ⟨f1, f2, f3⟩ := search_ok (t := t) (h := hash (at3 s p)) hb c1 hm.1
          obtain ⟨h2, e2⟩ := mat_wf (off := p - (search s t p (hash (at3 s p))).1) (len := (search s t p (hash (at3 s p))).2) h1 hk1
          obtain ⟨k', F', ts, h3, e3, hv, hx⟩ := loop_ok hb fuel _ _ _ w' _ _ h2 (by omega) e
          have hcp := copy_take (s := s) (off := p - (search s t p (hash (at3 s p))).1) (by omega)
            (search s t p (hash (at3 s p))).2 p (by omega) (by omega) (by
              intro i hi
              rw [show p - (p - (search s t p (hash (at3 s p))).1) = (search s t p (hash (at3 s p))).1 by omega]
              exact f3 i hi)
          refine ⟨k', F', .mat (p - (search s t p (hash (at3 s p))).1) (search s t p (hash (at3 s p))).2 :: ts, h3, ?_, ?_, ?_⟩
          · rw [e3, e2, e1]
          · refine ⟨by omega, by rw [hl]; omega, hm.2, by omega, by omega, by rw [hl]; exact c1, by rw [hl]; omega, ?_⟩
            rw [hcp]; exact hv
          · show expand (copy (s.take p) _ _) ts = s
            rw [hcp]; exact hx
        · obtain ⟨h2, e2⟩ := lit_wf (b := at1 s p) h1 hk1
          obtain ⟨k', F', ts, h3, e3, hv, hx⟩ := loop_ok hb fuel _ _ _ w' _ _ h2 (by omega) e
          refine ⟨k', F', .lit (at1 s p) :: ts, h3, ?_, ?_, ?_⟩
          · rw [e3, e2, e1]
          · show Valid s.length (s.take p ++ [at1 s p]) ts
            rw [take_lit (by omega)]; exact hv
          · show expand (s.take p ++ [at1 s p]) ts = s
            rw [take_lit (by omega)]; exact hx
    · rw [if_neg c1] at e
      cases e
      obtain ⟨k', F', h3, e3⟩ := tail_ok (s.drop p) h
      refine ⟨k', F', _, h3, e3, ?_, ?_⟩
      · rw [valid_lits_length, hl, List.length_drop]; omega
      · rw [expand_lits, List.take_append_drop]

/-- The body of a compressed text is read back. -/
theorem core_ok {junk t s r} (hb : Bytes s) (h0 : 0 < s.length) (e : core junk t s = some r) :
    decode s.length (s.length + 1) 1 r [] = some s := by
  unfold core at e
  cases hl : loop s (s.length + 1) 0 { t with cnt := fun _ => 0 } ⟨[], 2 ^ 31, []⟩ with
  | none => rw [hl] at e; cases e
  | some w =>
    rw [hl] at e
    simp only [Option.some.injEq] at e
    obtain ⟨k', F', ts, h3, e3, hv, hx⟩ := loop_ok hb _ _ _ _ w 0 0 ⟨by omega, by decide, rfl⟩ (by omega) hl
    rw [fin_eq h3, e3] at e
    have hv : Valid s.length [] ts := by simpa using hv
    have hx : expand [] ts = s := by simpa using hx
    cases ts with
    | nil => have hv : ([] : List Nat).length = s.length := hv; simp at hv; omega
    | cons tk ts =>
      -- the first control word is like one after a full one
      have e0 : r = (fmt (tk :: ts) 0).2 ++ junk.take (9 - (final ⟨[], 2 ^ 31, []⟩ 0 0 (tk :: ts)).length) := by
        rw [← e]; congr 1
        unfold final
        show [] ++ (Verif.Qlz.le 4 (0 + 2 ^ 0 * (2 * (fmt ts 30).1 + tk.flag)) ++ ([] ++ (tk.enc ++ (fmt ts 30).2))) =
          Verif.Qlz.le 4 (2 * (fmt ts 30).1 + tk.flag) ++ (tk.enc ++ (fmt ts 30).2)
        rw [List.nil_append, List.nil_append, Nat.pow_zero, Nat.one_mul, Nat.zero_add]
      rw [e0]
      have hle := valid_le hv
      simp only [List.length_nil] at hle
      have := decode_fmt (rest := junk.take (9 - (final ⟨[], 2 ^ 31, []⟩ 0 0 (tk :: ts)).length)) (s.length + 1) (tk :: ts) 0 []
        (by omega) (by omega) hv (by simpa using h0)
      rw [hx] at this
      exact this

end Verif.Qlz
