import Verif.Dbt.Spec

/-!
# Every value is put where it belongs
-/

namespace Verif.Dbt

structure Inv (s : S) (fl : Nat → Flag) (u : Nat → Nat) (a : A) : Prop where
  flag : ∀ i, (s.slots i).flag = fl i
  ulen : ∀ i, fl i = .usermem → (s.slots i).ulen = u i
  buf : ∀ i p, fl i ≠ .static → (s.slots i).data = some p → p < s.next ∧ ∃ b, s.heap p = some b ∧ b.cap = (s.slots i).ulen
  empty : ∀ i, fl i ≠ .static → (s.slots i).data = none → (s.slots i).ulen = 0
  own : ∀ i j p, fl i ≠ .static → fl j ≠ .static → i ≠ j → (s.slots i).data = some p → (s.slots j).data ≠ some p
  sbuf : ∀ p, s.sdata = some p → p < s.next ∧ ∃ b, s.heap p = some b ∧ b.cap = s.slen
  sempty : s.sdata = none → s.slen = 0
  sown : ∀ i p, fl i ≠ .static → (s.slots i).data = some p → s.sdata ≠ some p
  fresh : ∀ p, s.next ≤ p → s.heap p = none
  shows : ∀ i v, a i = some v → Shows s i v
  stat : ∀ i v, fl i = .static → a i = some v → (s.slots i).data = s.sdata

theorem inv_start {s fl u} (h : Start s fl u) : Inv s fl u (fun _ => none) where
  flag := h.flag
  ulen := fun i _ => h.ulen i
  buf := h.buf
  empty := h.empty
  own := h.own
  sbuf := fun p e => by rw [h.sdata] at e; cases e
  sempty := fun _ => h.slen
  sown := fun i p _ _ e => by rw [h.sdata] at e; cases e
  fresh := h.fresh
  shows := fun i v e => by cases e
  stat := fun i v _ e => by cases e

/-- With room in the buffer, copying works and changes this buffer only. -/
theorem copy_ok {s : S} {p v} (h : p = none → v = []) (hb : ∀ q, p = some q → ∃ b, s.heap q = some b ∧ v.length ≤ b.cap) :
    ∃ s', copy s p v = some s' ∧ s'.next = s.next ∧ s'.slots = s.slots ∧ s'.sdata = s.sdata ∧ s'.slen = s.slen ∧
      (∀ q, p ≠ some q → s'.heap q = s.heap q) ∧
      ∀ q, p = some q → ∃ b b', s.heap q = some b ∧ s'.heap q = some b' ∧ b'.cap = b.cap ∧ b'.bytes.take v.length = v := by
  cases p with
  | none =>
    refine ⟨s, ?_, rfl, rfl, rfl, rfl, fun _ _ => rfl, fun q e => (by cases e)⟩
    unfold copy
    rw [if_pos (h rfl)]
  | some q =>
    obtain ⟨b, hq, hl⟩ := hb q rfl
    refine ⟨setHeap s q (some ⟨b.cap, v ++ b.bytes.drop v.length⟩), ?_, rfl, rfl, rfl, rfl, ?_, ?_⟩
    · unfold copy
      simp only [hq]
      rw [if_pos hl]
    · intro q' hne
      unfold setHeap
      simp only []
      rw [if_neg (fun e => hne (by rw [e]))]
    · intro q' e
      cases e
      refine ⟨b, ⟨b.cap, v ++ b.bytes.drop v.length⟩, hq, ?_, rfl, List.take_left' rfl⟩
      unfold setHeap
      simp only [if_true]

theorem grow_ok {s : S} {p n} (hb : ∀ q, p = some q → q < s.next ∧ ∃ b, s.heap q = some b) :
    ∃ s', grow s p n = some (s', s.next) ∧ s'.next = s.next + 1 ∧ s'.slots = s.slots ∧ s'.sdata = s.sdata ∧ s'.slen = s.slen ∧
      (∀ q, p ≠ some q → q ≠ s.next → s'.heap q = s.heap q) ∧ (∃ b, s'.heap s.next = some b ∧ b.cap = n) := by
  cases p with
  | none =>
    refine ⟨_, rfl, rfl, rfl, rfl, rfl, ?_, ⟨n, []⟩, ?_, rfl⟩
    · intro q _ hq
      unfold setHeap
      simp only []
      rw [if_neg hq]
    · unfold setHeap
      simp only [if_true]
  | some q =>
    obtain ⟨hlt, b, hq⟩ := hb q rfl
    refine ⟨{ setHeap (setHeap s q none) s.next (some ⟨n, b.bytes.take n⟩) with next := s.next + 1 }, ?_, rfl, rfl, rfl, rfl,
      ?_, ⟨n, b.bytes.take n⟩, ?_, rfl⟩
    · unfold grow
      simp only [hq]
    · intro q' h1 h2
      unfold setHeap
      simp only []
      rw [if_neg h2, if_neg (fun e => h1 (by rw [e]))]
    · unfold setHeap
      simp only [if_true]

theorem mul32_eq {a b : Nat} (h : a * b < 2 ^ 32) : mul32 a b = a * b := Nat.mod_eq_of_lt h

/-- What a value leads to is always long enough, and not much longer. -/
theorem resize_some {ulen len f u} (hl : len < 2 ^ 30) (h : resize ulen len f = some u) :
    len ≤ u ∧ (u = 2 * len ∨ u = 16 ∨ u = len) := by
  have h2 : mul32 len 2 = len * 2 := mul32_eq (by omega)
  unfold resize at h
  rw [h2] at h
  split at h
  · cases h; omega
  split at h
  · split at h <;> cases h <;> omega
  split at h
  · cases h; omega
  · cases h

theorem resize_none {ulen len f} (hl : len < 2 ^ 30) (h : resize ulen len f = none) :
    len ≤ ulen ∧ (ulen ≤ 16 ∨ ulen ≤ 4 * len) ∧ f = false := by
  have h2 : mul32 len 4 = len * 4 := mul32_eq (by omega)
  unfold resize at h
  rw [h2] at h
  split at h
  · cases h
  split at h
  · cases h
  split at h
  · cases h
  · next h1 h2 h3 =>
    refine ⟨by omega, by omega, ?_⟩
    cases f
    · rfl
    · exact absurd rfl h3

theorem slot_self (s : S) (i : Nat) (d : D) : (setSlot s i d).slots i = d := if_pos rfl
theorem slot_ne {s : S} {i j : Nat} {d : D} (h : j ≠ i) : (setSlot s i d).slots j = s.slots j := if_neg h

/-- The value was put into the buffer `p` of DBT `i`, which was its own before or is new; all other buffers of DBTs and the cursor's
are as before. -/
theorem inv_set {s s' : S} {fl u a i p v d} (I : Inv s fl u a) (hs : fl i ≠ .static)
    (hfit : ¬ (fl i = .usermem ∧ u i < v.length))
    (hd : s'.slots i = d) (hj : ∀ j, j ≠ i → s'.slots j = s.slots j)
    (h1 : d.flag = fl i) (h2 : fl i = .usermem → d.ulen = u i) (h3 : d.size = v.length) (h4 : d.data = p)
    (hp : p = none → d.ulen = 0 ∧ v = [])
    (hq : ∀ q, p = some q → (q < s'.next ∧ ∃ b, s'.heap q = some b ∧ b.cap = d.ulen ∧ b.bytes.take v.length = v) ∧
      (q = s.next ∨ (s.slots i).data = some q))
    (hn : s.next ≤ s'.next)
    (hh : ∀ q, p ≠ some q → (s.slots i).data ≠ some q → s'.heap q = s.heap q)
    (hold : ∀ q, (s.slots i).data = some q → q < s.next)
    (hsd : s'.sdata = s.sdata) (hsl : s'.slen = s.slen) : Inv s' fl u (A.step fl u a i v) := by
  -- a buffer of another DBT, or the cursor's, is as before
  have keep : ∀ j q, j ≠ i → fl j ≠ .static → (s.slots j).data = some q → s'.heap q = s.heap q := by
    intro j q hji hfj hdj
    apply hh
    · intro e
      rcases (hq q e).2 with e' | e'
      · have := (I.buf j q hfj hdj).1; omega
      · exact I.own i j q hs hfj (Ne.symm hji) e' hdj
    · exact fun e => I.own i j q hs hfj (Ne.symm hji) e hdj
  have keeps : ∀ q, s.sdata = some q → s'.heap q = s.heap q := by
    intro q e0
    apply hh
    · intro e
      rcases (hq q e).2 with e' | e'
      · have := (I.sbuf q e0).1; omega
      · exact I.sown i q hs e' e0
    · exact fun e => I.sown i q hs e e0
  refine ⟨?_, ?_, ?_, ?_, ?_, ?_, ?_, ?_, ?_, ?_, ?_⟩
  · intro j
    by_cases e : j = i
    · rw [e, hd]; exact h1
    · rw [hj j e]; exact I.flag j
  · intro j hf
    by_cases e : j = i
    · subst e; rw [hd]; exact h2 hf
    · rw [hj j e]; exact I.ulen j hf
  · intro j q hf hdq
    by_cases e : j = i
    · subst e
      rw [hd, h4] at hdq
      obtain ⟨⟨g1, b, g2, g3, _⟩, _⟩ := hq q hdq
      rw [hd]
      exact ⟨g1, b, g2, g3⟩
    · rw [hj j e] at hdq ⊢
      obtain ⟨g1, g2⟩ := I.buf j q hf hdq
      rw [keep j q e hf hdq]
      exact ⟨Nat.lt_of_lt_of_le g1 hn, g2⟩
  · intro j hf hdn
    by_cases e : j = i
    · subst e
      rw [hd] at hdn ⊢
      rw [h4] at hdn
      exact (hp hdn).1
    · rw [hj j e] at hdn ⊢
      exact I.empty j hf hdn
  · intro j k q hfj hfk hjk h5 h6
    by_cases e : j = i
    · subst e
      rw [hd, h4] at h5
      rw [hj k (Ne.symm hjk)] at h6
      rcases (hq q h5).2 with e' | e'
      · have := (I.buf k q hfk h6).1; omega
      · exact I.own j k q hfj hfk hjk e' h6
    · rw [hj j e] at h5
      by_cases e2 : k = i
      · subst e2
        rw [hd, h4] at h6
        rcases (hq q h6).2 with e' | e'
        · have := (I.buf j q hfj h5).1; omega
        · exact I.own j k q hfj hfk hjk h5 e'
      · rw [hj k e2] at h6
        exact I.own j k q hfj hfk hjk h5 h6
  · intro q e
    rw [hsd] at e
    obtain ⟨g1, g2⟩ := I.sbuf q e
    rw [keeps q e, hsl]
    exact ⟨Nat.lt_of_lt_of_le g1 hn, g2⟩
  · intro e
    rw [hsd] at e
    rw [hsl]
    exact I.sempty e
  · intro j q hf h5 h6
    rw [hsd] at h6
    by_cases e : j = i
    · subst e
      rw [hd, h4] at h5
      rcases (hq q h5).2 with e' | e'
      · have := (I.sbuf q h6).1; omega
      · exact I.sown j q hf e' h6
    · rw [hj j e] at h5
      exact I.sown j q hf h5 h6
  · intro q hle
    have hne : p ≠ some q := by
      intro e
      have := (hq q e).1.1
      omega
    have hne2 : (s.slots i).data ≠ some q := by
      intro e
      have := hold q e
      omega
    rw [hh q hne hne2]
    exact I.fresh q (Nat.le_trans hn hle)
  · intro j w haw
    unfold A.step at haw
    by_cases e : j = i
    · subst e
      rw [if_pos rfl, if_neg hfit] at haw
      cases haw
      refine ⟨by rw [hd]; exact h3, ?_⟩
      cases hpp : p with
      | none => exact .inl (hp hpp).2
      | some q =>
        obtain ⟨⟨_, b, g2, _, g4⟩, _⟩ := hq q hpp
        exact .inr ⟨q, b, by rw [hd, h4, hpp], g2, g4⟩
    · rw [if_neg e, if_neg (fun x => hs x.1)] at haw
      obtain ⟨g1, g2⟩ := I.shows j w haw
      refine ⟨by rw [hj j e]; exact g1, ?_⟩
      rcases g2 with g2 | ⟨q, b, g3, g4, g5⟩
      · exact .inl g2
      · refine .inr ⟨q, b, by rw [hj j e]; exact g3, ?_, g5⟩
        by_cases hf : fl j = .static
        · rw [keeps q (by rw [← I.stat j w hf haw]; exact g3)]; exact g4
        · rw [keep j q e hf g3]; exact g4
  · intro j w hf haw
    unfold A.step at haw
    by_cases e : j = i
    · subst e; exact absurd hf hs
    · rw [if_neg e, if_neg (fun x => hs x.1)] at haw
      rw [hj j e, hsd]
      exact I.stat j w hf haw

/-- Only the size of a buffer that is too small was noted. -/
theorem inv_small {s : S} {fl u a i v} (I : Inv s fl u a) (hu : fl i = .usermem) (hl : u i < v.length) :
    Inv (setSlot s i { s.slots i with size := v.length }) fl u (A.step fl u a i v) := by
  have hsl : ∀ j, ((setSlot s i { s.slots i with size := v.length }).slots j).data = (s.slots j).data ∧
      ((setSlot s i { s.slots i with size := v.length }).slots j).ulen = (s.slots j).ulen ∧
      ((setSlot s i { s.slots i with size := v.length }).slots j).flag = (s.slots j).flag := by
    intro j
    by_cases e : j = i
    · subst e; rw [slot_self]; exact ⟨rfl, rfl, rfl⟩
    · rw [slot_ne e]; exact ⟨rfl, rfl, rfl⟩
  have ha : ∀ j w, A.step fl u a i v j = some w → j ≠ i ∧ a j = some w := by
    intro j w h
    unfold A.step at h
    by_cases e : j = i
    · rw [if_pos e, if_pos ⟨hu, hl⟩] at h; cases h
    · rw [if_neg e, if_neg (fun x => by rw [hu] at x; cases x.1)] at h
      exact ⟨e, h⟩
  refine ⟨?_, ?_, ?_, ?_, ?_, I.sbuf, I.sempty, ?_, I.fresh, ?_, ?_⟩
  · intro j; rw [(hsl j).2.2]; exact I.flag j
  · intro j; rw [(hsl j).2.1]; exact I.ulen j
  · intro j; rw [(hsl j).2.1, (hsl j).1]; exact I.buf j
  · intro j; rw [(hsl j).2.1, (hsl j).1]; exact I.empty j
  · intro j k; rw [(hsl j).1, (hsl k).1]; exact I.own j k
  · intro j; rw [(hsl j).1]; exact I.sown j
  · intro j w h
    obtain ⟨e, h⟩ := ha j w h
    have := I.shows j w h
    unfold Shows at this ⊢
    rw [slot_ne e]
    exact this
  · intro j w hf h
    obtain ⟨e, h⟩ := ha j w h
    rw [(hsl j).1]
    exact I.stat j w hf h

/-- The value was put into the cursor's buffer. -/
theorem inv_static {s s' : S} {fl u a i p v d} (I : Inv s fl u a) (hs : fl i = .static)
    (hd : s'.slots i = d) (hj : ∀ j, j ≠ i → s'.slots j = s.slots j)
    (h1 : d.flag = fl i) (h3 : d.size = v.length) (h4 : d.data = p)
    (hp : p = none → s'.slen = 0 ∧ v = [])
    (hq : ∀ q, p = some q → (q < s'.next ∧ ∃ b, s'.heap q = some b ∧ b.cap = s'.slen ∧ b.bytes.take v.length = v) ∧
      (q = s.next ∨ s.sdata = some q))
    (hn : s.next ≤ s'.next)
    (hh : ∀ q, p ≠ some q → s.sdata ≠ some q → s'.heap q = s.heap q)
    (hsd : s'.sdata = p) : Inv s' fl u (A.step fl u a i v) := by
  have keep : ∀ j q, fl j ≠ .static → (s.slots j).data = some q → s'.heap q = s.heap q := by
    intro j q hfj hdj
    apply hh
    · intro e
      rcases (hq q e).2 with e' | e'
      · have := (I.buf j q hfj hdj).1; omega
      · exact I.sown j q hfj hdj e'
    · exact I.sown j q hfj hdj
  have ne : ∀ j, fl j ≠ .static → j ≠ i := fun j h e => h (by rw [e]; exact hs)
  refine ⟨?_, ?_, ?_, ?_, ?_, ?_, ?_, ?_, ?_, ?_, ?_⟩
  · intro j
    by_cases e : j = i
    · rw [e, hd]; exact h1
    · rw [hj j e]; exact I.flag j
  · intro j hf
    rw [hj j (ne j (by rw [hf]; intro x; cases x))]
    exact I.ulen j hf
  · intro j q hf hdq
    rw [hj j (ne j hf)] at hdq ⊢
    obtain ⟨g1, g2⟩ := I.buf j q hf hdq
    rw [keep j q hf hdq]
    exact ⟨Nat.lt_of_lt_of_le g1 hn, g2⟩
  · intro j hf hdn
    rw [hj j (ne j hf)] at hdn ⊢
    exact I.empty j hf hdn
  · intro j k q hfj hfk hjk h5 h6
    rw [hj j (ne j hfj)] at h5
    rw [hj k (ne k hfk)] at h6
    exact I.own j k q hfj hfk hjk h5 h6
  · intro q e
    rw [hsd] at e
    obtain ⟨⟨g1, b, g2, g3, _⟩, _⟩ := hq q e
    exact ⟨g1, b, g2, g3⟩
  · intro e
    rw [hsd] at e
    exact (hp e).1
  · intro j q hf h5 h6
    rw [hsd] at h6
    rw [hj j (ne j hf)] at h5
    rcases (hq q h6).2 with e' | e'
    · have := (I.buf j q hf h5).1; omega
    · exact I.sown j q hf h5 e'
  · intro q hle
    have hne : p ≠ some q := by
      intro e
      have := (hq q e).1.1
      omega
    have hne2 : s.sdata ≠ some q := by
      intro e
      have := (I.sbuf q e).1
      omega
    rw [hh q hne hne2]
    exact I.fresh q (Nat.le_trans hn hle)
  · intro j w haw
    unfold A.step at haw
    by_cases e : j = i
    · subst e
      rw [if_pos rfl, if_neg (fun x => by rw [hs] at x; cases x.1)] at haw
      cases haw
      refine ⟨by rw [hd]; exact h3, ?_⟩
      cases hpp : p with
      | none => exact .inl (hp hpp).2
      | some q =>
        obtain ⟨⟨_, b, g2, _, g4⟩, _⟩ := hq q hpp
        exact .inr ⟨q, b, by rw [hd, h4, hpp], g2, g4⟩
    · rw [if_neg e] at haw
      split at haw
      · cases haw
      · next hf =>
        have hf : fl j ≠ .static := fun x => hf ⟨hs, x⟩
        obtain ⟨g1, g2⟩ := I.shows j w haw
        refine ⟨by rw [hj j e]; exact g1, ?_⟩
        rcases g2 with g2 | ⟨q, b, g3, g4, g5⟩
        · exact .inl g2
        · exact .inr ⟨q, b, by rw [hj j e]; exact g3, by rw [keep j q hf g3]; exact g4, g5⟩
  · intro j w hf haw
    unfold A.step at haw
    by_cases e : j = i
    · subst e; rw [hd, h4, hsd]
    · rw [if_neg e, if_pos ⟨hs, hf⟩] at haw
      cases haw

theorem inv_realloc {s : S} {fl u a i v d} (I : Inv s fl u a) (hs : fl i ≠ .static) (hu : fl i ≠ .usermem)
    (hl : v.length < 2 ^ 30) (hf : d.flag = fl i)
    (hd : (d.data = (s.slots i).data ∧ d.ulen = (s.slots i).ulen) ∨ (d.data = none ∧ d.ulen = 0)) :
    ∃ s', setRealloc s i d v true = some (s', 0) ∧ Inv s' fl u (A.step fl u a i v) ∧
      ((s'.slots i).ulen ≤ 16 ∨ (s'.slots i).ulen ≤ 4 * v.length) ∧
      (∀ q, d.data ≠ some q → q < s.next → s'.heap q = s.heap q) ∧
      (d.data = none → (s'.slots i).data = some s.next) := by
  have hbuf : ∀ q, d.data = some q → q < s.next ∧ (s.slots i).data = some q ∧ ∃ b, s.heap q = some b ∧ b.cap = d.ulen := by
    intro q e
    rcases hd with ⟨e1, e2⟩ | ⟨e1, _⟩
    · rw [e1] at e
      rw [e2]
      obtain ⟨g1, g2⟩ := I.buf i q hs e
      exact ⟨g1, e, g2⟩
    · rw [e1] at e; cases e
  unfold setRealloc
  cases hr : resize d.ulen v.length d.data.isNone with
  | none =>
    obtain ⟨r1, r2, r3⟩ := resize_none hl hr
    obtain ⟨q0, hq0⟩ : ∃ q, d.data = some q := by
      cases hdd : d.data with
      | none => rw [hdd] at r3; cases r3
      | some q => exact ⟨q, rfl⟩
    obtain ⟨g1, g2, b, g3, g4⟩ := hbuf q0 hq0
    obtain ⟨s1, e1, n1, sl1, sd1, sn1, k1, w1⟩ := copy_ok (s := s) (p := d.data) (v := v)
      (fun e => by rw [hq0] at e; cases e)
      (fun q e => by rw [hq0] at e; cases e; exact ⟨b, g3, by omega⟩)
    refine ⟨setSlot s1 i { d with size := v.length }, by simp only [e1, Option.map_some], ?_, ?_, ?_, ?_⟩
    · refine inv_set (p := d.data) (d := { d with size := v.length }) I hs (fun x => hu x.1) (slot_self _ _ _)
        (fun j e => by rw [slot_ne e, sl1]) hf (fun x => absurd x hu) rfl rfl (fun e => by rw [hq0] at e; cases e) ?_
        (Nat.le_of_eq n1.symm) (fun q h _ => k1 q h) (fun q e => (I.buf i q hs e).1) sd1 sn1
      intro q e
      obtain ⟨b1, b2, x1, x2, x3, x4⟩ := w1 q e
      rw [hq0] at e; cases e
      rw [g3] at x1; cases x1
      exact ⟨⟨by show q0 < s1.next; omega, b2, x2, by show b2.cap = d.ulen; omega, x4⟩, .inr g2⟩
    · rw [slot_self]; exact r2
    · intro q e _; exact k1 q e
    · intro e; rw [hq0] at e; cases e
  | some n =>
    obtain ⟨r1, r2⟩ := resize_some hl hr
    obtain ⟨s1, e1, n1, sl1, sd1, sn1, k1, b, hb, hc⟩ := grow_ok (s := s) (p := d.data) (n := n)
      (fun q e => ⟨(hbuf q e).1, (hbuf q e).2.2.elim fun b h => ⟨b, h.1⟩⟩)
    obtain ⟨s2, e2, n2, sl2, sd2, sn2, k2, w2⟩ := copy_ok (s := s1) (p := some s.next) (v := v)
      (fun e => by cases e) (fun q e => by cases e; exact ⟨b, hb, by omega⟩)
    refine ⟨setSlot s2 i { d with data := some s.next, ulen := n, size := v.length },
      by simp only [if_true, e1, e2, Option.map_some], ?_, ?_, ?_, ?_⟩
    · refine inv_set (p := some s.next) (d := { d with data := some s.next, ulen := n, size := v.length }) I hs
        (fun x => hu x.1) (slot_self _ _ _)
        (fun j e => by rw [slot_ne e, sl2, sl1]) hf (fun x => absurd x hu) rfl rfl (fun e => by cases e) ?_
        (by show s.next ≤ s2.next; omega) ?_ (fun q e => (I.buf i q hs e).1) (sd2.trans sd1) (sn2.trans sn1)
      · intro q e
        obtain ⟨b1, b2, x1, x2, x3, x4⟩ := w2 q e
        cases e
        rw [hb] at x1; cases x1
        exact ⟨⟨by show s.next < s2.next; omega, b2, x2, by show b2.cap = n; omega, x4⟩, .inl rfl⟩
      · intro q h5 h6
        show s2.heap q = s.heap q
        rw [k2 q h5, k1 q _ (fun e => h5 (by rw [e]))]
        intro e
        exact h6 (hbuf q e).2.1
    · rw [slot_self]; simp only []; omega
    · intro q h5 h6
      show s2.heap q = s.heap q
      rw [k2 q (fun e => by cases e; omega), k1 q h5 (by omega)]
    · intro _; rw [slot_self]

/-- Every value is put where it belongs, if memory can be had. -/
theorem inv_step {s : S} {fl u a i v} (I : Inv s fl u a) (hl : v.length < 2 ^ 30) :
    ∃ s' r, dbtSet s i v true = some (s', r) ∧ Inv s' fl u (A.step fl u a i v) ∧
      (r = 0 ∨ fl i = .usermem ∧ u i < v.length ∧ r = BUFFER_SMALL) := by
  have hfl := I.flag i
  unfold dbtSet
  simp only []
  cases hf : fl i with
  | usermem =>
    rw [hf] at hfl
    simp only [hfl]
    have hul := I.ulen i hf
    by_cases hlt : (s.slots i).ulen < v.length
    · rw [if_pos hlt]
      have h := inv_small (v := v) I hf (by omega)
      simp only [hfl] at h
      exact ⟨_, _, rfl, h, .inr ⟨trivial, by omega, rfl⟩⟩
    · rw [if_neg hlt]
      have hs : fl i ≠ .static := by rw [hf]; intro x; cases x
      have hnil : (s.slots i).data = none → v = [] := by
        intro e
        have := I.empty i hs e
        exact List.length_eq_zero_iff.mp (by omega)
      obtain ⟨s1, e1, n1, sl1, sd1, sn1, k1, w1⟩ := copy_ok (s := s) (p := (s.slots i).data) (v := v) hnil
        (fun q e => by obtain ⟨_, b, g1, g2⟩ := I.buf i q hs e; exact ⟨b, g1, by omega⟩)
      refine ⟨setSlot s1 i { s.slots i with size := v.length, flag := .usermem }, 0, by simp only [e1, Option.map_some], ?_,
        .inl rfl⟩
      refine inv_set (p := (s.slots i).data) (d := { s.slots i with size := v.length, flag := .usermem }) I hs
        (fun x => by omega) (slot_self _ _ _) (fun j e => by rw [slot_ne e, sl1]) (by rw [hf]) (fun _ => hul) rfl rfl
        (fun e => ⟨I.empty i hs e, hnil e⟩) ?_ (Nat.le_of_eq n1.symm) (fun q h _ => k1 q h) (fun q e => (I.buf i q hs e).1) sd1 sn1
      intro q e
      obtain ⟨b1, b2, x1, x2, x3, x4⟩ := w1 q e
      obtain ⟨g1, b, g2, g3⟩ := I.buf i q hs e
      rw [g2] at x1; cases x1
      exact ⟨⟨by show q < s1.next; omega, b2, x2, by show b2.cap = (s.slots i).ulen; omega, x4⟩, .inr e⟩
  | malloc =>
    rw [hf] at hfl
    simp only [hfl]
    obtain ⟨s', e, I', _⟩ := inv_realloc (d := { s.slots i with data := none, ulen := 0, flag := .malloc }) I
      (by rw [hf]; intro x; cases x) (by rw [hf]; intro x; cases x) hl (by rw [hf]) (.inr ⟨rfl, rfl⟩)
    exact ⟨s', 0, e, I', .inl rfl⟩
  | realloc =>
    rw [hf] at hfl
    simp only [hfl]
    obtain ⟨s', e, I', _⟩ := inv_realloc (d := s.slots i) I
      (by rw [hf]; intro x; cases x) (by rw [hf]; intro x; cases x) hl (by rw [hf, hfl]) (.inl ⟨rfl, rfl⟩)
    exact ⟨s', 0, e, I', .inl rfl⟩
  | static =>
    rw [hf] at hfl
    simp only [hfl]
    cases hr : resize s.slen v.length false with
    | none =>
      obtain ⟨r1, _, _⟩ := resize_none hl hr
      have hnil : s.sdata = none → v = [] := by
        intro e
        have := I.sempty e
        exact List.length_eq_zero_iff.mp (by omega)
      obtain ⟨s1, e1, n1, sl1, sd1, sn1, k1, w1⟩ := copy_ok (s := s) (p := s.sdata) (v := v) hnil
        (fun q e => by obtain ⟨_, b, g1, g2⟩ := I.sbuf q e; exact ⟨b, g1, by omega⟩)
      refine ⟨setSlot s1 i { s.slots i with data := s1.sdata, size := v.length, flag := .static }, 0,
        by simp only [e1, Option.map_some], ?_, .inl rfl⟩
      refine inv_static (p := s.sdata) (d := { s.slots i with data := s1.sdata, size := v.length, flag := .static }) I hf
        (slot_self _ _ _) (fun j e => by rw [slot_ne e, sl1]) (by rw [hf]) rfl sd1
        (fun e => ⟨by show s1.slen = 0; rw [sn1]; exact I.sempty e, hnil e⟩) ?_ (Nat.le_of_eq n1.symm) (fun q h _ => k1 q h) sd1
      intro q e
      obtain ⟨b1, b2, x1, x2, x3, x4⟩ := w1 q e
      obtain ⟨g1, b, g2, g3⟩ := I.sbuf q e
      rw [g2] at x1; cases x1
      exact ⟨⟨by show q < s1.next; omega, b2, x2, by show b2.cap = s1.slen; omega, x4⟩, .inr e⟩
    | some n =>
      obtain ⟨r1, _⟩ := resize_some hl hr
      obtain ⟨s1, e1, n1, sl1, sd1, sn1, k1, b, hb, hc⟩ := grow_ok (s := s) (p := s.sdata) (n := n)
        (fun q e => ⟨(I.sbuf q e).1, (I.sbuf q e).2.elim fun b h => ⟨b, h.1⟩⟩)
      obtain ⟨s2, e2, n2, sl2, sd2, sn2, k2, w2⟩ := copy_ok (s := s1) (p := some s.next) (v := v)
        (fun e => by cases e) (fun q e => by cases e; exact ⟨b, hb, by omega⟩)
      refine ⟨{ setSlot s2 i { s.slots i with data := some s.next, size := v.length, flag := .static } with
          sdata := some s.next, slen := n }, 0, by simp only [if_true, e1, e2, Option.map_some], ?_, .inl rfl⟩
      refine inv_static (p := some s.next) (d := { s.slots i with data := some s.next, size := v.length, flag := .static }) I hf
        (if_pos rfl) (fun j e => by show (if j = i then _ else s2.slots j) = _; rw [if_neg e, sl2, sl1]) (by rw [hf]) rfl rfl
        (fun e => by cases e) ?_ (by show s.next ≤ s2.next; omega) ?_ rfl
      · intro q e
        obtain ⟨b1, b2, x1, x2, x3, x4⟩ := w2 q e
        cases e
        rw [hb] at x1; cases x1
        exact ⟨⟨by show s.next < s2.next; omega, b2, x2, by show b2.cap = n; omega, x4⟩, .inl rfl⟩
      · intro q h5 h6
        show s2.heap q = s.heap q
        rw [k2 q h5, k1 q h6 (fun e => h5 (by rw [e]))]

theorem inv_run {es} : ∀ {s : S} {fl u a}, Inv s fl u a → (∀ e ∈ es, e.2.2 = true ∧ e.2.1.length < 2 ^ 30) →
    ∃ s', run s es = some s' ∧ Inv s' fl u (A.run fl u a es) := by
  induction es with
  | nil => intro s fl u a I _; exact ⟨s, rfl, I⟩
  | cons e es ih =>
    intro s fl u a I h
    obtain ⟨i, v, ok⟩ := e
    obtain ⟨h1, h2⟩ := h _ List.mem_cons_self
    simp only [] at h1 h2
    subst h1
    obtain ⟨s1, r, e1, I1, _⟩ := inv_step (i := i) I h2
    obtain ⟨s', e', I'⟩ := ih I1 (fun x hx => h x (List.mem_cons_of_mem _ hx))
    refine ⟨s', ?_, I'⟩
    unfold run
    simp only [e1]
    exact e'

end Verif.Dbt
