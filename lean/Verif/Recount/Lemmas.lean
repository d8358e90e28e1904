import Verif.Recount.Spec

namespace Verif.Recount

/-- Rows from `lo` on. -/
def cnt (rows : List (Nat × Bool)) (lo : Nat) : Nat := (rows.filter fun r => r.2 && decide (lo ≤ r.1)).length

theorem cnt_cons {k l r lo} : cnt ((k, l) :: r) lo = (if l = true ∧ lo ≤ k then 1 else 0) + cnt r lo := by
  unfold cnt
  rw [List.filter_cons]
  by_cases h : l = true ∧ lo ≤ k
  · rw [if_pos h, if_pos (by simp [h.1, h.2])]; simp; omega
  · rw [if_neg h, if_neg (by simpa using h)]; omega

theorem cnt_zero {rows : List (Nat × Bool)} {lo} (h : ∀ r ∈ rows, r.1 < lo) : cnt rows lo = 0 := by
  unfold cnt
  rw [List.length_eq_zero_iff, List.filter_eq_nil_iff]
  intro r hr
  have := h r hr
  simp; intro _; omega

theorem cnt_all {rows : List (Nat × Bool)} {a b} (ha : ∀ r ∈ rows, a ≤ r.1) (hb : ∀ r ∈ rows, b ≤ r.1) : cnt rows a = cnt rows b := by
  unfold cnt
  congr 1
  apply List.filter_congr
  intro r hr
  simp [ha r hr, hb r hr]

theorem scan_none : ∀ {rows lo n}, scan rows lo = (n, none) → cnt rows lo = 0 ∧ ∀ h, lo ≤ h → (h, true) ∉ rows
  | [], _, _, _ => ⟨rfl, fun _ _ h => by cases h⟩
  | (k, l) :: r, lo, n, e => by
    unfold scan at e
    rw [cnt_cons]
    by_cases c : k < lo
    · rw [if_pos c] at e
      obtain ⟨h1, h2⟩ := scan_none e
      refine ⟨by rw [h1, if_neg (by omega)], fun h hl hm => ?_⟩
      rcases List.mem_cons.1 hm with he | hm
      · cases he; omega
      · exact h2 h hl hm
    · rw [if_neg c] at e
      cases l with
      | true => simp at e
      | false =>
        simp only [Bool.false_eq_true, if_false, Prod.mk.injEq] at e
        obtain ⟨h1, h2⟩ := scan_none (n := (scan r lo).1) (Prod.ext rfl e.2)
        refine ⟨by rw [h1]; simp, fun h hl hm => ?_⟩
        rcases List.mem_cons.1 hm with he | hm
        · cases he
        · exact h2 h hl hm

theorem scan_some : ∀ {rows lo n k}, rows.Pairwise (fun x y => x.1 < y.1) → scan rows lo = (n, some k) →
    lo ≤ k ∧ (k, true) ∈ rows ∧ cnt rows lo = 1 + cnt rows (k + 1)
  | [], _, _, _, _, e => by cases e
  | (k', l) :: r, lo, n, k, hs, e => by
    obtain ⟨s1, s2⟩ := List.pairwise_cons.1 hs
    unfold scan at e
    rw [cnt_cons, cnt_cons]
    by_cases c : k' < lo
    · rw [if_pos c] at e
      obtain ⟨h1, h2, h3⟩ := scan_some s2 e
      refine ⟨h1, List.mem_cons_of_mem _ h2, ?_⟩
      rw [if_neg (by omega), if_neg (by omega), h3]; omega
    · rw [if_neg c] at e
      cases l with
      | true =>
        simp only [if_true, Prod.mk.injEq, Option.some.injEq] at e
        obtain ⟨-, e⟩ := e
        subst e
        refine ⟨by omega, List.mem_cons_self, ?_⟩
        rw [if_pos ⟨rfl, by omega⟩, if_neg (by omega)]
        rw [cnt_all (a := lo) (b := k' + 1) (fun x hx => by have := s1 x hx; simp only at this; omega) (fun x hx => by have := s1 x hx; simp only at this; omega)]
        omega
      | false =>
        simp only [Bool.false_eq_true, if_false, Prod.mk.injEq] at e
        obtain ⟨h1, h2, h3⟩ := scan_some (n := (scan r lo).1) s2 (Prod.ext rfl e.2)
        refine ⟨h1, List.mem_cons_of_mem _ h2, ?_⟩
        rw [if_neg (by simp), if_neg (by simp), h3]; omega

/-- What a scan from `lo` on adds for one basement node. -/
def want1 (p : Part) (lo : Nat) : Nat :=
  cnt p.rows lo + match p.hi with | some h => if lo ≤ h ∧ (h, true) ∉ p.rows then 1 else 0 | none => 0

def want (d : List Part) (lo : Nat) : Nat := (d.map fun p => want1 p lo).sum

theorem legal_low : ∀ {d a}, Legal a d → ∀ p ∈ d, (∀ r ∈ p.rows, a ≤ r.1) ∧ ∀ h, p.hi = some h → a ≤ h
  | [], _, _, _, hp => by cases hp
  | ⟨rows, hi⟩ :: rest, a, hl, p, hp => by
    obtain ⟨h1, h2, h3⟩ := hl
    cases hi with
    | none =>
      simp only at h3
      subst h3
      rcases List.mem_cons.1 hp with e | e
      · subst e; exact ⟨h2, fun h e => by cases e⟩
      · cases e
    | some x =>
      simp only at h3
      rcases List.mem_cons.1 hp with e | e
      · subst e; exact ⟨h2, fun h e => by cases e; exact h3.1⟩
      · obtain ⟨g1, g2⟩ := legal_low h3.2.2 p e
        exact ⟨fun r hr => by have := g1 r hr; omega, fun h e => by have := g2 h e; omega⟩

/-- Everything is behind both places. -/
theorem want_same {d a x y} (hl : Legal a d) (hx : x ≤ a) (hy : y ≤ a) : want d x = want d y := by
  unfold want
  congr 1
  apply List.map_congr_left
  intro p hp
  obtain ⟨g1, g2⟩ := legal_low hl p hp
  unfold want1
  rw [cnt_all (a := x) (b := y) (fun r hr => by have := g1 r hr; omega) (fun r hr => by have := g1 r hr; omega)]
  cases e : p.hi with
  | none => rfl
  | some h =>
    have := g2 h e
    by_cases c : (h, true) ∉ p.rows
    · simp only; rw [if_pos ⟨by omega, c⟩, if_pos ⟨by omega, c⟩]
    · simp only; rw [if_neg (fun g => c g.2), if_neg (fun g => c g.2)]

theorem want_cons {p d lo} : want (p :: d) lo = want1 p lo + want d lo := by simp [want]

/-- Keys written before it ends, when the callback never cancels. -/
theorem walk_ok {ans : Nat → Int} (ha : ∀ i, ans i = 0) : ∀ {d a lo s}, Legal a d →
    (∀ p ∈ d, ∀ h, p.hi = some h → lo ≤ h) →
    match walk ans d lo s with
    | .row k s' => lo ≤ k ∧ s'.cancelled = false ∧ s'.keys + want d (k + 1) = s.keys + want d lo ∧
        (d.map fun p => cnt p.rows (k + 1)).sum < (d.map fun p => cnt p.rows lo).sum
    | .stop r s' => r = notFound ∧ s'.cancelled = false ∧ s'.keys = s.keys + want d lo
  | [], a, lo, s, _, _ => by simp [walk, S.call, ha, want]
  | p :: rest, a, lo, s, hl, hlo => by
    obtain ⟨rows, hi⟩ := p
    have hl0 := hl
    obtain ⟨h1, h2, h3⟩ := hl
    have hrest : ∀ p ∈ rest, ∀ h, p.hi = some h → lo ≤ h := fun p hp => hlo p (List.mem_cons_of_mem _ hp)
    unfold walk
    rcases hsc : scan rows lo with ⟨n, _ | k⟩
    · obtain ⟨c1, c2⟩ := scan_none hsc
      have hs1 : (if 0 < n then s.call ans n else s).keys = s.keys := by split <;> rfl
      have hs2 : ¬ (0 < n ∧ (if 0 < n then s.call ans n else s).cancelled = true) := by
        rintro ⟨hn, g⟩
        rw [if_pos hn] at g
        simp [S.call, ha] at g
      simp only [hsc, if_neg hs2]
      cases hi with
      | none =>
        simp only at h3
        subst h3
        have hw : want [⟨rows, none⟩] lo = 0 := by simp [want, want1, c1]
        rw [hw]
        have e : ∀ v : S, walk ans [] lo v = .stop notFound (v.call ans 0) := by intro v; simp [walk, S.call, ha]
        simp only [e]
        exact ⟨trivial, by simp [S.call, ha], hs1⟩
      | some h =>
        simp only at h3
        have hh := hlo _ List.mem_cons_self h rfl
        have hf : ((if 0 < n then s.call ans n else s).found ans).cancelled = false := by simp [S.found, S.call, ha]
        have hk : ((if 0 < n then s.call ans n else s).found ans).keys = s.keys + 1 := by
          show (if 0 < n then s.call ans n else s).keys + 1 = _
          rw [hs1]
        simp only [hf, Bool.false_eq_true, if_false]
        have ih := walk_ok ha (lo := lo) (s := (if 0 < n then s.call ans n else s).found ans) h3.2.2 hrest
        have hw : want1 ⟨rows, some h⟩ lo = 1 := by
          simp only [want1, c1]; rw [if_pos ⟨hh, c2 h hh⟩]
        generalize walk ans rest lo ((if 0 < n then s.call ans n else s).found ans) = o at ih ⊢
        cases o with
        | stop r s' =>
          simp only at ih ⊢
          refine ⟨ih.1, ih.2.1, ?_⟩
          rw [ih.2.2, want_cons, hw, hk]; omega
        | row k s' =>
          simp only at ih ⊢
          obtain ⟨i1, i2, i3, i4⟩ := ih
          have hkh : h < k + 1 ∧ cnt rows (k + 1) = 0 := by
            have : h < k + 1 := by
              refine Nat.lt_of_not_le fun c => ?_
              have e := want_same h3.2.2 (x := lo) (y := k + 1) (by omega) (by omega)
              have hlow := legal_low h3.2.2
              have : (rest.map fun p => cnt p.rows (k + 1)) = rest.map fun p => cnt p.rows lo := by
                apply List.map_congr_left
                intro p hp
                exact cnt_all (fun r hr => by have := (hlow p hp).1 r hr; omega) (fun r hr => by have := (hlow p hp).1 r hr; omega)
              rw [this] at i4; omega
            exact ⟨this, cnt_zero fun r hr => by have := h3.2.1 r hr; omega⟩
          refine ⟨i1, i2, ?_, ?_⟩
          · rw [want_cons, want_cons, hw]
            have : want1 ⟨rows, some h⟩ (k + 1) = 0 := by
              simp only [want1, hkh.2]; rw [if_neg (by omega)]
            rw [this]; omega
          · simp only [List.map_cons, List.sum_cons, hkh.2, c1]; omega
    · obtain ⟨c1, c2, c3⟩ := scan_some h1 hsc
      have hs1 : (if 0 < n then s.call ans n else s).keys = s.keys := by split <;> rfl
      have hf : ((if 0 < n then s.call ans n else s).found ans).cancelled = false := by simp [S.found, S.call, ha]
      have hk : ((if 0 < n then s.call ans n else s).found ans).keys = s.keys + 1 := by
        show (if 0 < n then s.call ans n else s).keys + 1 = _
        rw [hs1]
      simp only [hsc, hf, Bool.false_eq_true, if_false]
      rw [hk, want_cons, want_cons]
      simp only [List.map_cons, List.sum_cons]
      cases hi with
      | none =>
        simp only at h3
        subst h3
        refine ⟨c1, trivial, ?_, ?_⟩
        · simp only [want1, want, List.map_nil, List.sum_nil]; omega
        · simp only [List.map_nil, List.sum_nil]; omega
      | some h =>
        simp only at h3
        have hkh := h3.2.1 _ c2
        simp only at hkh
        have hlow := legal_low h3.2.2
        have e1 := want_same h3.2.2 (x := lo) (y := k + 1) (by omega) (by omega)
        have e2 : (rest.map fun p => cnt p.rows (k + 1)) = rest.map fun p => cnt p.rows lo := by
          apply List.map_congr_left
          intro p hp
          exact cnt_all (fun r hr => by have := (hlow p hp).1 r hr; omega) (fun r hr => by have := (hlow p hp).1 r hr; omega)
        refine ⟨c1, trivial, ?_, ?_⟩
        · have : (if lo ≤ h ∧ (h, true) ∉ rows then 1 else 0) = if k + 1 ≤ h ∧ (h, true) ∉ rows then 1 else 0 := by
            by_cases g : (h, true) ∉ rows
            · have : k ≠ h := fun e => g (e ▸ c2)
              rw [if_pos ⟨by omega, g⟩, if_pos ⟨by omega, g⟩]
            · rw [if_neg (fun q => g q.2), if_neg (fun q => g q.2)]
          simp only [want1]
          rw [this, e1]; omega
        · rw [e2]; omega

/-- Leaving out what is before `lo` leaves out nothing that is wanted. -/
theorem start_ok : ∀ {d a lo}, Legal a d → ∃ b, Legal b (start d lo) ∧ (∀ p ∈ start d lo, ∀ h, p.hi = some h → lo ≤ h) ∧
    (∀ x, lo ≤ x → want d x = want (start d lo) x ∧ (d.map fun p => cnt p.rows x).sum = ((start d lo).map fun p => cnt p.rows x).sum)
  | [], _, _, _ => ⟨0, trivial, (fun p hp => by cases hp), fun _ _ => ⟨rfl, rfl⟩⟩
  | ⟨rows, hi⟩ :: rest, a, lo, hl => by
    have hl0 := hl
    obtain ⟨h1, h2, h3⟩ := hl
    cases hi with
    | none =>
      simp only at h3
      subst h3
      have e : start [⟨rows, none⟩] lo = [⟨rows, none⟩] := rfl
      rw [e]
      refine ⟨a, hl0, ?_, fun _ _ => ⟨rfl, rfl⟩⟩
      intro p hp h e
      rcases List.mem_cons.1 hp with q | q
      · subst q; cases e
      · cases q
    | some h =>
      simp only at h3
      by_cases c : h < lo
      · have e : start (⟨rows, some h⟩ :: rest) lo = start rest lo := by simp [start, c]
        rw [e]
        obtain ⟨b, b1, b2, b3⟩ := start_ok (lo := lo) h3.2.2
        refine ⟨b, b1, b2, fun x hx => ?_⟩
        have z : cnt rows x = 0 := cnt_zero fun r hr => by have := h3.2.1 r hr; omega
        have w : want1 ⟨rows, some h⟩ x = 0 := by
          simp only [want1, z]; rw [if_neg (by omega)]
        rw [want_cons, w, (b3 x hx).1]
        refine ⟨by omega, ?_⟩
        simp only [List.map_cons, List.sum_cons, z]
        rw [(b3 x hx).2]; omega
      · have e : start (⟨rows, some h⟩ :: rest) lo = ⟨rows, some h⟩ :: rest := by simp [start, c]
        rw [e]
        refine ⟨a, hl0, ?_, fun _ _ => ⟨rfl, rfl⟩⟩
        intro p hp x ex
        rcases List.mem_cons.1 hp with q | q
        · subst q; cases ex; omega
        · have := (legal_low h3.2.2 p q).2 x ex; omega

theorem run_ok {ans : Nat → Int} (ha : ∀ i, ans i = 0) {d : List Part} (hl : Legal 0 d) : ∀ (fuel i lo : Nat) (s : S),
    (d.map fun p => cnt p.rows lo).sum < fuel →
    ∃ s', run ans (fun _ => d) fuel i lo s = some (notFound, s') ∧ s'.cancelled = false ∧ s'.keys = s.keys + want d lo
  | 0, _, _, _, h => by omega
  | fuel + 1, i, lo, s, h => by
    obtain ⟨b, b1, b2, b3⟩ := start_ok (lo := lo) hl
    have hw := walk_ok ha (s := s) b1 b2
    unfold run
    cases e : walk ans (start d lo) lo s with
    | stop r s' =>
      rw [e] at hw
      simp only at hw ⊢
      obtain ⟨w1, w2, w3⟩ := hw
      exact ⟨s', by rw [w1], w2, by rw [w3, (b3 lo (Nat.le_refl _)).1]⟩
    | row k s' =>
      rw [e] at hw
      simp only at hw ⊢
      obtain ⟨w1, w2, w3, w4⟩ := hw
      rw [← (b3 lo (Nat.le_refl _)).2, ← (b3 (k + 1) (by omega)).2] at w4
      rw [← (b3 lo (Nat.le_refl _)).1, ← (b3 (k + 1) (by omega)).1] at w3
      obtain ⟨s'', r1, r2, r3⟩ := run_ok ha hl fuel (i + 1) (k + 1) s' (by omega)
      exact ⟨s'', r1, r2, by omega⟩

/-! ### The total -/

theorem rowsOf_cons {p d} : rowsOf (p :: d) = (p.rows.filterMap fun r => if r.2 then some r.1 else none) ++ rowsOf d := by
  simp [rowsOf, List.filterMap_append]

theorem rows_mem {rows : List (Nat × Bool)} {h : Nat} : h ∈ (rows.filterMap fun r => if r.2 then some r.1 else none) ↔ (h, true) ∈ rows := by
  rw [List.mem_filterMap]
  constructor
  · rintro ⟨⟨k, l⟩, hm, e⟩
    cases l with
    | true => simp at e; exact e ▸ hm
    | false => simp at e
  · intro hm; exact ⟨(h, true), hm, by simp⟩

theorem rows_cnt : ∀ {rows : List (Nat × Bool)}, cnt rows 0 = (rows.filterMap fun r => if r.2 then some r.1 else none).length
  | [] => rfl
  | (k, l) :: r => by
    rw [cnt_cons, rows_cnt (rows := r)]
    cases l <;> simp; omega

theorem rowsOf_low {d a} (hl : Legal a d) : ∀ h ∈ rowsOf d, a ≤ h := by
  intro h hm
  unfold rowsOf at hm
  rw [rows_mem, List.mem_flatMap] at hm
  obtain ⟨p, hp, hr⟩ := hm
  exact (legal_low hl p hp).1 _ hr

theorem hi_row : ∀ {d a}, Legal a d → ∀ p ∈ d, ∀ h, p.hi = some h → (h ∈ rowsOf d ↔ (h, true) ∈ p.rows)
  | [], _, _, _, hp => by cases hp
  | ⟨rows, hi⟩ :: rest, a, hl, p, hp => by
    intro h e
    obtain ⟨h1, h2, h3⟩ := hl
    rw [rowsOf_cons, List.mem_append, rows_mem]
    cases hi with
    | none =>
      simp only at h3
      subst h3
      rcases List.mem_cons.1 hp with q | q
      · subst q; cases e
      · cases q
    | some x =>
      simp only at h3
      rcases List.mem_cons.1 hp with q | q
      · subst q
        cases e
        constructor
        · rintro (g | g)
          · exact g
          · have := rowsOf_low h3.2.2 _ g; omega
        · exact Or.inl
      · rw [hi_row h3.2.2 p q h e]
        constructor
        · rintro (g | g)
          · have g1 := h3.2.1 _ g
            have g2 := (legal_low h3.2.2 p q).2 h e
            simp only at g1; omega
          · exact g
        · exact Or.inr

theorem want_total {P : Nat → Bool} : ∀ {d : List Part}, (∀ p ∈ d, ∀ h, p.hi = some h → (P h = true ↔ (h, true) ∈ p.rows)) →
    want d 0 = (rowsOf d).length + ((d.filterMap (·.hi)).filter fun h => !P h).length
  | [], _ => rfl
  | ⟨rows, hi⟩ :: rest, hp => by
    rw [want_cons, rowsOf_cons, want_total (d := rest) (P := P) fun p hm => hp p (List.mem_cons_of_mem _ hm), List.length_append, ← rows_cnt]
    cases hi with
    | none => simp only [want1, List.filterMap_cons]; omega
    | some h =>
      have e := hp _ List.mem_cons_self h rfl
      simp only [want1, List.filterMap_cons, List.filter_cons]
      by_cases c : (h, true) ∈ rows
      · rw [if_neg (fun g => g.2 c), if_neg (by simp [e.2 c])]; omega
      · have : P h = false := by
          cases q : P h with
          | false => rfl
          | true => exact absurd (e.1 q) c
        rw [if_pos ⟨by omega, c⟩, if_pos (by simp [this])]
        simp only [List.length_cons]; omega

/-! ### Calls of the callback -/

/-- While the scan goes on. -/
structure Inv (s : S) : Prop where
  up : s.log.Pairwise fun x y => x.1 ≤ y.1
  le : ∀ e ∈ s.log, e.1 ≤ s.keys
  ok : ∀ e ∈ s.log, e.2.2 = 0 ∨ 0 < e.2.1

/-- At its end. -/
structure Fin (r : Int) (s : S) : Prop where
  up : s.log.Pairwise fun x y => x.1 ≤ y.1
  last : ∃ l e, s.log = l ++ [e] ∧ (∀ x ∈ l, x.2.2 = 0 ∨ 0 < x.2.1) ∧ e.1 = s.keys ∧ (s.cancelled = true ↔ e.2.2 ≠ 0)
  ret : s.cancelled = true → r = 1 ∨ r = interrupted

theorem call_up {ans s n} (h : Inv s) : (S.call ans s n).log.Pairwise fun x y => x.1 ≤ y.1 := by
  unfold S.call
  rw [List.pairwise_append]
  refine ⟨h.up, List.pairwise_singleton .., ?_⟩
  intro a ha b hb
  rw [List.mem_singleton] at hb
  subst hb
  exact h.le a ha

theorem call_fin {ans s n r} (h : Inv s) (hr : (S.call ans s n).cancelled = true → r = 1 ∨ r = interrupted) : Fin r (S.call ans s n) where
  up := call_up h
  last := ⟨s.log, _, rfl, h.ok, rfl, by simp [S.call]⟩
  ret := hr

theorem call_inv {ans s n} (h : Inv s) (hn : 0 < n ∨ (S.call ans s n).cancelled = false) : Inv (S.call ans s n) where
  up := call_up h
  le := by
    intro e he
    rcases List.mem_append.1 he with q | q
    · exact h.le e q
    · rw [List.mem_singleton] at q; subst q; exact Nat.le_refl _
  ok := by
    intro e he
    rcases List.mem_append.1 he with q | q
    · exact h.ok e q
    · rw [List.mem_singleton] at q; subst q
      rcases hn with hn | hn
      · exact Or.inr hn
      · left; simpa [S.call] using hn

theorem more_inv {s : S} (h : Inv s) : Inv { s with keys := s.keys + 1 } where
  up := h.up
  le := fun e he => Nat.le_succ_of_le (h.le e he)
  ok := h.ok

theorem walk_log {ans : Nat → Int} : ∀ {d lo s}, Inv s →
    match walk ans d lo s with
    | .row _ s' => Inv s'
    | .stop r s' => Fin r s'
  | [], lo, s, h => by
    unfold walk
    simp only
    split
    · rename_i o k s' e
      split at e <;> cases e
    · rename_i o r s' e
      split at e
      · cases e; exact call_fin h fun _ => Or.inl rfl
      · rename_i c
        cases e; exact call_fin h fun q => absurd q c
  | p :: rest, lo, s, h => by
    unfold walk
    rcases hsc : scan p.rows lo with ⟨n, _ | k⟩
    · have hs : Inv (if 0 < n then s.call ans n else s) := by
        split
        · rename_i c; exact call_inv h (Or.inl c)
        · exact h
      simp only
      by_cases c : 0 < n ∧ (if 0 < n then s.call ans n else s).cancelled = true
      · rw [if_pos c]
        simp only
        rw [if_pos c.1]
        exact call_fin h fun _ => Or.inr rfl
      · rw [if_neg c]
        generalize (if 0 < n then s.call ans n else s) = v at hs
        cases p.hi with
        | none => exact walk_log hs
        | some x =>
          simp only
          by_cases c : (v.found ans).cancelled = true
          · rw [if_pos c]; exact call_fin (more_inv hs) fun _ => Or.inl rfl
          · rw [if_neg c]; exact walk_log (call_inv (more_inv hs) (Or.inr (Bool.eq_false_iff.2 c)))
    · have hs : Inv (if 0 < n then s.call ans n else s) := by
        split
        · rename_i c; exact call_inv h (Or.inl c)
        · exact h
      simp only
      generalize (if 0 < n then s.call ans n else s) = v at hs
      by_cases c : (v.found ans).cancelled = true
      · rw [if_pos c]; exact call_fin (more_inv hs) fun _ => Or.inl rfl
      · rw [if_neg c]; exact call_inv (more_inv hs) (Or.inr (Bool.eq_false_iff.2 c))

theorem run_log {ans : Nat → Int} {dict : Nat → List Part} : ∀ {fuel i lo s r s'}, Inv s → run ans dict fuel i lo s = some (r, s') → Fin r s'
  | 0, _, _, _, _, _, _, e => by cases e
  | fuel + 1, i, lo, s, r, s', h, e => by
    unfold run at e
    have hw := walk_log (ans := ans) (d := start (dict i) lo) (lo := lo) h
    cases q : walk ans (start (dict i) lo) lo s with
    | row k t => rw [q] at e hw; exact run_log hw e
    | stop x t => rw [q] at e hw; cases e; exact hw

end Verif.Recount
