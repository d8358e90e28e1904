import Verif.Rw.Inv
/-!
Every step keeps the invariant of the fair lock, and no check fails.
-/
set_option linter.unusedVariables false
set_option linter.unusedSimpArgs false
namespace Verif.Rw

variable {n : Nat} {s : St}

def b2n (b : Bool) : Nat := if b then 1 else 0

/-- All counts, after one thread has changed. -/
theorem counts (n : Nat) (f : Nat → Th) (t : Nat) (x : Th) (h : t < n) (p : Th → Bool) :
    num n p (fun u => if u = t then x else f u) + b2n (p (f t)) = num n p f + b2n (p x) := num_set n p f t x h

theorem inv_true (pd b : Bool) (h : b = true) : inv pd b = some () := by simp [inv, h]

theorem lt_of_busy (h : Inv n s) {t : Nat} (ht : s.thr t ≠ .idle) : t < n := by
  by_cases e : n ≤ t
  · exact absurd (h.out t e) ht
  · omega

/-- Other threads, and what is asked of `x`. -/
theorem set_iff {f : Nat → Th} {t : Nat} {x y : Th} (h1 : f t ≠ y) (h2 : x ≠ y) (u : Nat) : (if u = t then x else f u) = y ↔ f u = y := by
  by_cases e : u = t
  · subst e; simp [h1, h2]
  · simp [e]

theorem grant_write (h : Inv n s) {t : Nat} (ht : t < n) (hi : s.thr t = .idle) (e : Bool) (h0 : s.readers = 0 ∧ s.writers = 0 ∧ s.signaled = 0 ∧ s.wantW = 0) :
    Inv n ({ s with writers := 1, curExp := e }.set t (.writing e)) ∧ s.wantR = 0 := by
  obtain ⟨r0, w0, s0, ww0⟩ := h0
  have c := counts n s.thr t (.writing e) ht
  have cR := c Th.isR; have cW := c Th.isW; have cWW := c Th.isWW; have cWR := c Th.isWR; have cS := c Th.isS; have cE := c Th.isE; have cK := c Th.isK
  simp only [hi, Th.isR, Th.isW, Th.isWW, Th.isWR, Th.isS, Th.isE, Th.isK, b2n, if_true, Bool.false_eq_true, if_false, Nat.add_zero] at cR cW cWW cWR cS cE cK
  have hK : num n Th.isK s.thr = 0 := by
    rcases Nat.eq_zero_or_pos (num n Th.isK s.thr) with h' | h'
    · exact h'
    · obtain ⟨u, hu, hp⟩ := num_exists h'
      exfalso
      have : 0 < num n Th.isWW s.thr := num_pos hu (by
        cases e' : s.thr u <;> rw [e'] at hp <;> first | rfl | cases hp)
      rw [← h.cWW] at this
      omega
  have hq : s.queue = [] := by
    by_cases hq : s.queue = []
    · exact hq
    · have := h.prog hq; omega
  have hrd : s.inQueue = false := by
    cases hb : s.inQueue with
    | false => rfl
    | true => have := h.qrd.mpr hb; rw [hq] at this; cases this
  have hwr : s.wantR = 0 := by
    rw [h.cWR]
    rcases Nat.eq_zero_or_pos (num n Th.isWR s.thr) with h' | h'
    · exact h'
    · obtain ⟨u, hu, hp⟩ := num_exists h'
      exfalso
      cases e' : s.thr u with
      | waitR w =>
        cases w with
        | true => have : 0 < num n Th.isS s.thr := num_pos hu (by rw [e']; rfl)
                  rw [← h.cS] at this; omega
        | false => have := h.qin.mpr ⟨u, e'⟩; rw [hrd] at this; cases this
      | _ => rw [e'] at hp; cases hp
  have hnw : ∀ u b, s.thr u ≠ .writing b := by
    intro u b hu
    have := num_pos (p := Th.isW) (f := s.thr) (lt_of_busy h (by rw [hu]; simp)) (by rw [hu]; rfl)
    rw [← h.cW] at this; omega
  refine ⟨⟨?_, ?_, ?_, ?_, ?_, ?_, ?_, ?_, ?_, ?_, ?_, ?_, ?_, ?_, ?_, ?_, ?_⟩, hwr⟩
  · intro u hu
    simp only [St.set]
    rw [if_neg (by omega)]
    exact h.out u hu
  · exact h.cR.trans cR.symm
  · simp only [St.set]; rw [cW, ← h.cW, w0]
  · exact h.cWW.trans cWW.symm
  · exact h.cWR.trans cWR.symm
  · exact h.cS.trans cS.symm
  · exact h.cE.trans cE.symm
  · intro u
    simp only [St.set]
    refine (h.qw u).trans ?_
    constructor
    · rintro ⟨b, hb⟩; exact ⟨b, (set_iff (by rw [hi]; simp) (by simp) u).mpr hb⟩
    · rintro ⟨b, hb⟩; exact ⟨b, (set_iff (by rw [hi]; simp) (by simp) u).mp hb⟩
  · exact h.qnodup
  · exact h.qrd
  · simp only [St.set]
    refine h.qin.trans ?_
    constructor
    · rintro ⟨u, hb⟩; exact ⟨u, (set_iff (by rw [hi]; simp) (by simp) u).mpr hb⟩
    · rintro ⟨u, hb⟩; exact ⟨u, (set_iff (by rw [hi]; simp) (by simp) u).mp hb⟩
  · simp only [St.set]; rw [cK, hK]; omega
  · intro _; exact ⟨r0, s0⟩
  · intro hq'; exact absurd hq hq'
  · intro hw; simp only [St.set] at hw; omega
  · simp only [St.set]
    constructor
    · intro he; exact ⟨t, by simp [he]⟩
    · rintro ⟨u, hu⟩
      by_cases e' : u = t
      · rw [if_pos e'] at hu; cases hu; rfl
      · rw [if_neg e'] at hu; exact absurd hu (hnw u true)
  · exact h.rexp

theorem tryWrite_ok (h : Inv n s) {t : Nat} (ht : t < n) (hi : s.thr t = .idle) (pd e : Bool) :
    (∃ s', s.tryWrite pd t e = some (s', true) ∧ Inv n s' ∧ s'.thr t = .writing e) ∨ (s.tryWrite pd t e = some (s, false) ∧ (0 < s.readers ∨ 0 < s.writers ∨ 0 < s.signaled ∨ 0 < s.wantW)) := by
  by_cases hc : s.readers = 0 ∧ s.writers = 0 ∧ s.signaled = 0 ∧ s.wantW = 0
  · left
    obtain ⟨h1, h2⟩ := grant_write h ht hi e hc
    obtain ⟨r0, w0, s0, ww0⟩ := hc
    refine ⟨_, ?_, h1, by simp [St.set]⟩
    simp only [St.tryWrite, r0, w0, s0, ww0, h2, Nat.lt_irrefl, decide_false, Bool.or_self, Bool.false_eq_true, if_false, gt_iff_lt, inv, decide_true, Bool.not_true, Bool.and_false, bind, Option.bind, pure]
  · right
    have hd : 0 < s.readers ∨ 0 < s.writers ∨ 0 < s.signaled ∨ 0 < s.wantW := by omega
    refine ⟨?_, hd⟩
    simp only [St.tryWrite]
    rw [if_pos]
    simp only [gt_iff_lt, Bool.or_eq_true, decide_eq_true_eq]
    omega

theorem writeLock_ok (h : Inv n s) {t : Nat} (ht : t < n) (hi : s.thr t = .idle) (pd e : Bool) : ∃ s', s.writeLock pd t e = some s' ∧ Inv n s' := by
  rcases tryWrite_ok h ht hi pd e with ⟨s', h1, h2, _⟩ | ⟨h1, hd⟩
  · exact ⟨s', by simp only [St.writeLock, h1, bind, Option.bind, if_true, pure], h2⟩
  · refine ⟨_, by simp only [St.writeLock, h1, bind, Option.bind, Bool.false_eq_true, if_false, pure]; rfl, ?_⟩
    have c := counts n s.thr t (.waitW e false) ht
    have cR := c Th.isR; have cW := c Th.isW; have cWW := c Th.isWW; have cWR := c Th.isWR; have cS := c Th.isS; have cE := c Th.isE; have cK := c Th.isK
    simp only [hi, Th.isR, Th.isW, Th.isWW, Th.isWR, Th.isS, Th.isE, Th.isK, b2n, if_true, Bool.false_eq_true, if_false, Nat.add_zero] at cR cW cWW cWR cS cE cK
    have hnq : .wr t ∉ s.queue := by
      intro hq
      obtain ⟨b, hb⟩ := (h.qw t).mp hq
      rw [hi] at hb; cases hb
    refine ⟨?_, ?_, ?_, ?_, ?_, ?_, ?_, ?_, ?_, ?_, ?_, ?_, ?_, ?_, ?_, ?_, ?_⟩ <;> simp only [St.set, St.enq]
    · intro u hu
      rw [if_neg (by omega)]
      exact h.out u hu
    · exact h.cR.trans cR.symm
    · exact h.cW.trans cW.symm
    · rw [cWW, h.cWW]
    · exact h.cWR.trans cWR.symm
    · exact h.cS.trans cS.symm
    · cases e with
      | true => simp only [if_true] at cE ⊢; rw [cE, h.cE]
      | false => simp only [Bool.false_eq_true, if_false, Nat.add_zero] at cE ⊢; rw [cE, h.cE]
    · intro u
      rw [mem_append_one, h.qw u]
      by_cases e' : u = t
      · subst e'; simp [hi]
      · simp [e']
    · refine List.nodup_append.mpr ⟨h.qnodup, by simp, ?_⟩
      intro a ha b hb e'
      cases List.mem_singleton.mp hb
      subst e'
      exact hnq ha
    · rw [mem_append_one, h.qrd]; simp
    · refine h.qin.trans ?_
      constructor
      · rintro ⟨u, hb⟩; exact ⟨u, (set_iff (by rw [hi]; simp) (by simp) u).mpr hb⟩
      · rintro ⟨u, hb⟩; exact ⟨u, (set_iff (by rw [hi]; simp) (by simp) u).mp hb⟩
    · rw [cK]; exact h.one
    · rw [cK]; exact h.excl
    · intro _
      rw [cK]
      by_cases hw : 0 < s.wantW
      · rcases h.writer_waits hw with h' | h'
        · omega
        · exact h.prog h'
      · omega
    · intro hw hk q
      rw [cK] at hk
      have hh := h.head hw hk
      cases hq : s.queue with
      | nil => simp
      | cons a l =>
        intro e'
        rw [List.cons_append] at e'
        exact hh l (by rw [hq, (List.cons.inj e').1])
    · refine h.cur.trans ?_
      constructor
      · rintro ⟨u, hb⟩; exact ⟨u, (set_iff (by rw [hi]; simp) (by simp) u).mpr hb⟩
      · rintro ⟨u, hb⟩; exact ⟨u, (set_iff (by rw [hi]; simp) (by simp) u).mp hb⟩
    · exact h.rexp

/-- A reader gets the lock. -/
theorem grant_read (h : Inv n s) {t : Nat} (ht : t < n) (hi : s.thr t = .idle) (h0 : s.writers = 0) (h1 : s.wantW = 0) : Inv n ({ s with readers := s.readers + 1 }.set t .reading) := by
  have c := counts n s.thr t .reading ht
  have cR := c Th.isR; have cW := c Th.isW; have cWW := c Th.isWW; have cWR := c Th.isWR; have cS := c Th.isS; have cE := c Th.isE; have cK := c Th.isK
  simp only [hi, Th.isR, Th.isW, Th.isWW, Th.isWR, Th.isS, Th.isE, Th.isK, b2n, if_true, Bool.false_eq_true, if_false, Nat.add_zero] at cR cW cWW cWR cS cE cK
  have hK : num n Th.isK s.thr = 0 := by
    rcases Nat.eq_zero_or_pos (num n Th.isK s.thr) with h' | h'
    · exact h'
    · obtain ⟨u, hu, hp⟩ := num_exists h'
      exfalso
      have : 0 < num n Th.isWW s.thr := num_pos hu (by
        cases e' : s.thr u <;> rw [e'] at hp <;> first | rfl | cases hp)
      rw [← h.cWW] at this
      omega
  refine ⟨?_, ?_, ?_, ?_, ?_, ?_, ?_, ?_, ?_, ?_, ?_, ?_, ?_, ?_, ?_, ?_, ?_⟩ <;> simp only [St.set]
  · intro u hu
    rw [if_neg (by omega)]
    exact h.out u hu
  · rw [cR, h.cR]
  · exact h.cW.trans cW.symm
  · exact h.cWW.trans cWW.symm
  · exact h.cWR.trans cWR.symm
  · exact h.cS.trans cS.symm
  · exact h.cE.trans cE.symm
  · intro u
    refine (h.qw u).trans ?_
    constructor
    · rintro ⟨b, hb⟩; exact ⟨b, (set_iff (by rw [hi]; simp) (by simp) u).mpr hb⟩
    · rintro ⟨b, hb⟩; exact ⟨b, (set_iff (by rw [hi]; simp) (by simp) u).mp hb⟩
  · exact h.qnodup
  · exact h.qrd
  · refine h.qin.trans ?_
    constructor
    · rintro ⟨u, hb⟩; exact ⟨u, (set_iff (by rw [hi]; simp) (by simp) u).mpr hb⟩
    · rintro ⟨u, hb⟩; exact ⟨u, (set_iff (by rw [hi]; simp) (by simp) u).mp hb⟩
  · rw [cK]; exact h.one
  · rw [cK]; omega
  · rw [cK]; omega
  · rw [cK]; exact h.head
  · refine h.cur.trans ?_
    constructor
    · rintro ⟨u, hb⟩; exact ⟨u, (set_iff (by rw [hi]; simp) (by simp) u).mpr hb⟩
    · rintro ⟨u, hb⟩; exact ⟨u, (set_iff (by rw [hi]; simp) (by simp) u).mp hb⟩
  · exact h.rexp

/-- The readers that wait: those signalled, and those in the queue. -/
theorem Inv.no_unsignaled (h : Inv n s) (hq : s.inQueue = false) : s.signaled = s.wantR := by
  rw [h.cS, h.cWR]
  apply num_congr
  intro u
  cases e : s.thr u with
  | waitR w =>
    cases w with
    | true => rfl
    | false => have := h.qin.mpr ⟨u, e⟩; rw [hq] at this; cases this
  | _ => rfl

/-- The queue of readers and its figures, whether or not the item of the readers is new. -/
theorem wait_read (h : Inv n s) {t : Nat} (ht : t < n) (hi : s.thr t = .idle) (hw : 0 < s.writers ∨ 0 < s.wantW) (q1 : List Item) (x1 : Bool)
    (hq : (s.inQueue = true ∧ q1 = s.queue) ∨ (s.inQueue = false ∧ q1 = s.queue ++ [.rd])) : Inv n ({ s with queue := q1, inQueue := true, readExp := x1, wantR := s.wantR + 1 }.set t (.waitR false)) := by
  have c := counts n s.thr t (.waitR false) ht
  have cR := c Th.isR; have cW := c Th.isW; have cWW := c Th.isWW; have cWR := c Th.isWR; have cS := c Th.isS; have cE := c Th.isE; have cK := c Th.isK
  simp only [hi, Th.isR, Th.isW, Th.isWW, Th.isWR, Th.isS, Th.isE, Th.isK, b2n, if_true, Bool.false_eq_true, if_false, Nat.add_zero] at cR cW cWW cWR cS cE cK
  have hprog : 0 < s.writers + s.readers + s.signaled + num n Th.isK s.thr := by
    by_cases hw' : 0 < s.writers
    · omega
    · rcases h.writer_waits (hw.resolve_left hw') with h' | h'
      · omega
      · exact h.prog h'
  refine ⟨?_, ?_, ?_, ?_, ?_, ?_, ?_, ?_, ?_, ?_, ?_, ?_, ?_, ?_, ?_, ?_, ?_⟩ <;> simp only [St.set]
  · intro u hu
    rw [if_neg (by omega)]
    exact h.out u hu
  · exact h.cR.trans cR.symm
  · exact h.cW.trans cW.symm
  · exact h.cWW.trans cWW.symm
  · rw [cWR, h.cWR]
  · exact h.cS.trans cS.symm
  · exact h.cE.trans cE.symm
  · intro u
    have : .wr u ∈ q1 ↔ .wr u ∈ s.queue := by
      rcases hq with ⟨_, e⟩ | ⟨_, e⟩ <;> rw [e]
      rw [mem_append_one]; simp
    rw [this]
    refine (h.qw u).trans ?_
    constructor
    · rintro ⟨b, hb⟩; exact ⟨b, (set_iff (by rw [hi]; simp) (by simp) u).mpr hb⟩
    · rintro ⟨b, hb⟩; exact ⟨b, (set_iff (by rw [hi]; simp) (by simp) u).mp hb⟩
  · rcases hq with ⟨_, e⟩ | ⟨e', e⟩
    · rw [e]; exact h.qnodup
    · rw [e]
      refine List.nodup_append.mpr ⟨h.qnodup, by simp, ?_⟩
      intro a ha b hb e2
      cases List.mem_singleton.mp hb
      subst e2
      have := h.qrd.mp ha
      rw [e'] at this; cases this
  · rcases hq with ⟨e', e⟩ | ⟨e', e⟩
    · rw [e, h.qrd, e']; simp
    · rw [e, mem_append_one]; simp
  · simp only [true_iff]; exact ⟨t, by simp⟩
  · rw [cK]; exact h.one
  · rw [cK]; exact h.excl
  · rw [cK]; intro _; exact hprog
  · rw [cK]
    intro hw0 hk q
    have hh := h.head hw0 hk
    rcases hq with ⟨e', e⟩ | ⟨e', e⟩
    · rw [e]; exact hh q
    · have hne : s.queue ≠ [] := by
        rcases h.writer_waits (hw.resolve_left (by omega)) with h' | h'
        · omega
        · exact h'
      rw [e]
      cases hq : s.queue with
      | nil => exact absurd hq hne
      | cons a l =>
        intro e2
        rw [List.cons_append] at e2
        exact hh l (by rw [hq, (List.cons.inj e2).1])
  · refine h.cur.trans ?_
    constructor
    · rintro ⟨u, hb⟩; exact ⟨u, (set_iff (by rw [hi]; simp) (by simp) u).mpr hb⟩
    · rintro ⟨u, hb⟩; exact ⟨u, (set_iff (by rw [hi]; simp) (by simp) u).mp hb⟩
  · intro e; cases e

theorem readLock_ok (h : Inv n s) {t : Nat} (ht : t < n) (hi : s.thr t = .idle) (pd : Bool) : ∃ s', s.readLock pd t = some s' ∧ Inv n s' := by
  by_cases hw : 0 < s.writers ∨ 0 < s.wantW
  · have hb : (s.writers > 0 || s.wantW > 0) = true := by simpa using hw
    cases hq : s.inQueue with
    | true =>
      refine ⟨_, by simp only [St.readLock, hb, if_true, hq, Bool.not_true, Bool.false_eq_true, if_false, bind, Option.bind, pure]; rfl, ?_⟩
      exact wait_read h ht hi hw s.queue s.readExp (.inl ⟨hq, rfl⟩)
    | false =>
      have h1 := h.no_unsignaled hq
      have h2 := h.rexp hq
      refine ⟨_, by simp only [St.readLock, hb, if_true, hq, Bool.not_false, decide_eq_true h1, h2, St.enq, inv, Bool.not_true, Bool.and_false, Bool.false_eq_true, if_false, bind, Option.bind, pure]; rfl, ?_⟩
      exact wait_read h ht hi hw (s.queue ++ [.rd]) _ (.inr ⟨hq, rfl⟩)
  · have hb : (s.writers > 0 || s.wantW > 0) = false := by simpa using (by omega : ¬ (0 < s.writers ∨ 0 < s.wantW))
    refine ⟨_, by simp only [St.readLock, hb, Bool.false_eq_true, if_false, pure]; rfl, ?_⟩
    exact grant_read h ht hi (by omega) (by omega)

theorem tryRead_ok (h : Inv n s) {t : Nat} (ht : t < n) (hi : s.thr t = .idle) : Inv n (s.tryRead t).1 := by
  by_cases hw : 0 < s.writers ∨ 0 < s.wantW
  · have hb : (s.writers > 0 || s.wantW > 0) = true := by simpa using hw
    simp only [St.tryRead, hb, if_true]; exact h
  · have hb : (s.writers > 0 || s.wantW > 0) = false := by simpa using (by omega : ¬ (0 < s.writers ∨ 0 < s.wantW))
    simp only [St.tryRead, hb, Bool.false_eq_true, if_false]
    exact grant_read h ht hi (by omega) (by omega)

theorem resumeW_ok (h : Inv n s) {t : Nat} {e : Bool} (hi : s.thr t = .waitW e true) (pd : Bool) : ∃ s', s.resumeW pd t e = some s' ∧ Inv n s' := by
  have ht : t < n := lt_of_busy h (by rw [hi]; simp)
  have c := counts n s.thr t (.writing e) ht
  have cR := c Th.isR; have cW := c Th.isW; have cWW := c Th.isWW; have cWR := c Th.isWR; have cS := c Th.isS; have cE := c Th.isE; have cK := c Th.isK
  simp only [hi, Th.isR, Th.isW, Th.isWW, Th.isWR, Th.isS, Th.isE, Th.isK, b2n, if_true, Bool.false_eq_true, if_false, Nat.add_zero] at cR cW cWW cWR cS cE cK
  have hK : 0 < num n Th.isK s.thr := num_pos ht (by rw [hi]; rfl)
  have hWW : 0 < num n Th.isWW s.thr := num_pos ht (by rw [hi]; rfl)
  have hE : e = true → 0 < num n Th.isE s.thr := by rintro rfl; exact num_pos ht (by rw [hi]; rfl)
  have h1 := h.one
  obtain ⟨r0, s0⟩ := h.excl (by omega)
  have w0 : s.writers = 0 := by omega
  have hww : 0 < s.wantW := by rw [h.cWW]; exact hWW
  have hnw : ∀ u b, s.thr u ≠ .writing b := by
    intro u b hu
    have := num_pos (p := Th.isW) (f := s.thr) (lt_of_busy h (by rw [hu]; simp)) (by rw [hu]; rfl)
    rw [← h.cW] at this; omega
  refine ⟨_, by simp only [St.resumeW, decide_eq_true r0, decide_eq_true w0, decide_eq_true s0, gt_iff_lt, decide_eq_true hww, inv, Bool.not_true, Bool.and_false, Bool.false_eq_true, if_false, bind, Option.bind, pure]; rfl, ?_⟩
  refine ⟨?_, ?_, ?_, ?_, ?_, ?_, ?_, ?_, ?_, ?_, ?_, ?_, ?_, ?_, ?_, ?_, ?_⟩ <;> simp only [St.set]
  · intro u hu
    rw [if_neg (by omega)]
    exact h.out u hu
  · exact h.cR.trans cR.symm
  · rw [cW, ← h.cW, w0]
  · have := h.cWW; omega
  · exact h.cWR.trans cWR.symm
  · exact h.cS.trans cS.symm
  · have := h.cE
    cases e with
    | true => simp only [if_true] at cE ⊢; have := hE rfl; omega
    | false => simp only [Bool.false_eq_true, if_false, Nat.add_zero] at cE ⊢; omega
  · intro u
    refine (h.qw u).trans ?_
    constructor
    · rintro ⟨b, hb⟩; exact ⟨b, (set_iff (by rw [hi]; simp) (by simp) u).mpr hb⟩
    · rintro ⟨b, hb⟩; exact ⟨b, (set_iff (by rw [hi]; simp) (by simp) u).mp hb⟩
  · exact h.qnodup
  · exact h.qrd
  · refine h.qin.trans ?_
    constructor
    · rintro ⟨u, hb⟩; exact ⟨u, (set_iff (by rw [hi]; simp) (by simp) u).mpr hb⟩
    · rintro ⟨u, hb⟩; exact ⟨u, (set_iff (by rw [hi]; simp) (by simp) u).mp hb⟩
  · omega
  · intro _; exact ⟨r0, s0⟩
  · intro _; omega
  · intro hw; omega
  · constructor
    · intro he; exact ⟨t, by simp [he]⟩
    · rintro ⟨u, hu⟩
      by_cases e' : u = t
      · rw [if_pos e'] at hu; cases hu; rfl
      · rw [if_neg e'] at hu; exact absurd hu (hnw u true)
  · exact h.rexp

theorem resumeR_ok (h : Inv n s) {t : Nat} (hi : s.thr t = .waitR true) (pd : Bool) : ∃ s', s.resumeR pd t = some s' ∧ Inv n s' := by
  have ht : t < n := lt_of_busy h (by rw [hi]; simp)
  have c := counts n s.thr t .reading ht
  have cR := c Th.isR; have cW := c Th.isW; have cWW := c Th.isWW; have cWR := c Th.isWR; have cS := c Th.isS; have cE := c Th.isE; have cK := c Th.isK
  simp only [hi, Th.isR, Th.isW, Th.isWW, Th.isWR, Th.isS, Th.isE, Th.isK, b2n, if_true, Bool.false_eq_true, if_false, Nat.add_zero] at cR cW cWW cWR cS cE cK
  have hS : 0 < num n Th.isS s.thr := num_pos ht (by rw [hi]; rfl)
  have hWR : 0 < num n Th.isWR s.thr := num_pos ht (by rw [hi]; rfl)
  have hcs := h.cS
  have hcr := h.cWR
  have hk0 : s.writers + num n Th.isK s.thr = 0 := by
    rcases Nat.eq_zero_or_pos (s.writers + num n Th.isK s.thr) with h' | h'
    · exact h'
    · have := (h.excl h').2; omega
  have w0 : s.writers = 0 := by omega
  have hs0 : 0 < s.signaled := by omega
  have hr0 : 0 < s.wantR := by omega
  refine ⟨_, by simp only [St.resumeR, gt_iff_lt, decide_eq_true w0, decide_eq_true hs0, decide_eq_true hr0, inv, Bool.not_true, Bool.and_false, Bool.false_eq_true, if_false, bind, Option.bind, pure]; rfl, ?_⟩
  refine ⟨?_, ?_, ?_, ?_, ?_, ?_, ?_, ?_, ?_, ?_, ?_, ?_, ?_, ?_, ?_, ?_, ?_⟩ <;> simp only [St.set]
  · intro u hu
    rw [if_neg (by omega)]
    exact h.out u hu
  · have := h.cR; omega
  · exact h.cW.trans cW.symm
  · exact h.cWW.trans cWW.symm
  · omega
  · omega
  · exact h.cE.trans cE.symm
  · intro u
    refine (h.qw u).trans ?_
    constructor
    · rintro ⟨b, hb⟩; exact ⟨b, (set_iff (by rw [hi]; simp) (by simp) u).mpr hb⟩
    · rintro ⟨b, hb⟩; exact ⟨b, (set_iff (by rw [hi]; simp) (by simp) u).mp hb⟩
  · exact h.qnodup
  · exact h.qrd
  · refine h.qin.trans ?_
    constructor
    · rintro ⟨u, hb⟩; exact ⟨u, (set_iff (by rw [hi]; simp) (by simp) u).mpr hb⟩
    · rintro ⟨u, hb⟩; exact ⟨u, (set_iff (by rw [hi]; simp) (by simp) u).mp hb⟩
  · omega
  · omega
  · omega
  · intro _ hk; rw [cK] at hk; exact h.head w0 hk
  · refine h.cur.trans ?_
    constructor
    · rintro ⟨u, hb⟩; exact ⟨u, (set_iff (by rw [hi]; simp) (by simp) u).mpr hb⟩
    · rintro ⟨u, hb⟩; exact ⟨u, (set_iff (by rw [hi]; simp) (by simp) u).mp hb⟩
  · exact h.rexp

/-- The lock is free and nobody has been signalled. -/
structure Mid (n : Nat) (s : St) : Prop where
  out : ∀ t, n ≤ t → s.thr t = .idle
  cR : s.readers = num n Th.isR s.thr
  cW : s.writers = num n Th.isW s.thr
  cWW : s.wantW = num n Th.isWW s.thr
  cWR : s.wantR = num n Th.isWR s.thr
  cS : s.signaled = num n Th.isS s.thr
  cE : s.expWant = num n Th.isE s.thr
  qw : ∀ t, .wr t ∈ s.queue ↔ ∃ e, s.thr t = .waitW e false
  qnodup : s.queue.Nodup
  qrd : .rd ∈ s.queue ↔ s.inQueue = true
  qin : s.inQueue = true ↔ ∃ t, s.thr t = .waitR false
  cur : s.curExp = true ↔ ∃ t, s.thr t = .writing true
  rexp : s.inQueue = false → s.readExp = false
  w0 : s.writers = 0
  r0 : s.readers = 0
  s0 : s.signaled = 0
  k0 : num n Th.isK s.thr = 0

theorem mid_empty (h : Mid n s) (hq : s.queue = []) : Inv n s := by
  refine ⟨h.out, h.cR, h.cW, h.cWW, h.cWR, h.cS, h.cE, h.qw, h.qnodup, h.qrd, h.qin, ?_, ?_, ?_, ?_, h.cur, h.rexp⟩
  · rw [h.w0, h.k0]; omega
  · intro _; exact ⟨h.r0, h.s0⟩
  · intro h'; exact absurd hq h'
  · intro _ _ q; rw [hq]; intro e; cases e

theorem mid_signal (h : Mid n s) {u : Nat} {q : List Item} (hq : s.queue = .wr u :: q) : Inv n ({ s with queue := q }.signal u) := by
  obtain ⟨e, hu⟩ := (h.qw u).mp (by rw [hq]; simp)
  have hun : u < n := by
    rcases Nat.lt_or_ge u n with h' | h'
    · exact h'
    · have := h.out u h'; rw [hu] at this; cases this
  have c := counts n s.thr u (.waitW e true) hun
  have cR := c Th.isR; have cW := c Th.isW; have cWW := c Th.isWW; have cWR := c Th.isWR; have cS := c Th.isS; have cE := c Th.isE; have cK := c Th.isK
  simp only [hu, Th.isR, Th.isW, Th.isWW, Th.isWR, Th.isS, Th.isK, b2n, if_true, Bool.false_eq_true, if_false, Nat.add_zero, Nat.add_right_cancel_iff] at cR cW cWW cWR cS cK
  rw [hu] at cE
  have e0 : (Th.waitW e false).isE = (Th.waitW e true).isE := by cases e <;> rfl
  rw [e0] at cE
  have cE := Nat.add_right_cancel cE
  have hnd := h.qnodup
  rw [hq] at hnd
  obtain ⟨hnm, hnd⟩ := List.nodup_cons.mp hnd
  simp only [St.signal, hu]
  refine ⟨?_, ?_, ?_, ?_, ?_, ?_, ?_, ?_, ?_, ?_, ?_, ?_, ?_, ?_, ?_, ?_, ?_⟩ <;> simp only [St.set]
  · intro v hv
    rw [if_neg (by omega)]
    exact h.out v hv
  · exact h.cR.trans cR.symm
  · exact h.cW.trans cW.symm
  · exact h.cWW.trans cWW.symm
  · exact h.cWR.trans cWR.symm
  · exact h.cS.trans cS.symm
  · exact h.cE.trans cE.symm
  · intro v
    by_cases e' : v = u
    · subst e'
      simp only [if_true]
      constructor
      · intro hm; exact absurd hm hnm
      · rintro ⟨b, hb⟩; cases hb
    · simp only [if_neg e']
      rw [← h.qw v, hq]
      simp [e']
  · exact hnd
  · rw [← h.qrd, hq]; simp
  · refine h.qin.trans ?_
    constructor
    · rintro ⟨v, hb⟩; exact ⟨v, (set_iff (by rw [hu]; simp) (by simp) v).mpr hb⟩
    · rintro ⟨v, hb⟩; exact ⟨v, (set_iff (by rw [hu]; simp) (by simp) v).mp hb⟩
  · rw [cK, h.w0, h.k0]; omega
  · intro _; exact ⟨h.r0, h.s0⟩
  · intro _; rw [cK]; omega
  · intro _ hk; rw [cK] at hk; omega
  · refine h.cur.trans ?_
    constructor
    · rintro ⟨v, hb⟩; exact ⟨v, (set_iff (by rw [hu]; simp) (by simp) v).mpr hb⟩
    · rintro ⟨v, hb⟩; exact ⟨v, (set_iff (by rw [hu]; simp) (by simp) v).mp hb⟩
  · exact h.rexp

/-- The condition of a thread after the readers that wait have been woken. -/
def wake : Th → Th
  | .waitR _ => .waitR true
  | x => x

theorem num_map (n : Nat) (p p' : Th → Bool) (f : Nat → Th) (h : ∀ x, p (wake x) = p' x) : num n p (fun u => wake (f u)) = num n p' f := by
  induction n with
  | zero => rfl
  | succ n ih => rw [num_succ, num_succ, ih, h]

theorem mid_broadcast (h : Mid n s) {q : List Item} (hq : s.queue = .rd :: q) : 0 < s.wantR ∧ Inv n ({ s with queue := q, signaled := s.wantR, inQueue := false, readExp := false }.broadcast) := by
  have hin : s.inQueue = true := h.qrd.mp (by rw [hq]; simp)
  obtain ⟨t0, ht0⟩ := h.qin.mp hin
  have ht0n : t0 < n := by
    rcases Nat.lt_or_ge t0 n with h' | h'
    · exact h'
    · have := h.out t0 h'; rw [ht0] at this; cases this
  have hpos : 0 < num n Th.isWR s.thr := num_pos ht0n (by rw [ht0]; rfl)
  have hnd := h.qnodup
  rw [hq] at hnd
  obtain ⟨hnm, hnd⟩ := List.nodup_cons.mp hnd
  refine ⟨by rw [h.cWR]; exact hpos, ?_⟩
  have hbr : ({ s with queue := q, signaled := s.wantR, inQueue := false, readExp := false } : St).broadcast = { s with queue := q, signaled := s.wantR, inQueue := false, readExp := false, thr := fun u => wake (s.thr u) } := by
    simp only [St.broadcast]
    congr 1
  have ew : ∀ u e b, wake (s.thr u) = .waitW e b ↔ s.thr u = .waitW e b := by
    intro u e b; cases hx : s.thr u <;> simp [wake]
  have ei : ∀ u b, wake (s.thr u) = .writing b ↔ s.thr u = .writing b := by
    intro u b; cases hx : s.thr u <;> simp [wake]
  rw [hbr]
  have kK : num n Th.isK (fun u => wake (s.thr u)) = num n Th.isK s.thr := num_map n _ _ _ (by intro x; cases x <;> rfl)
  refine ⟨?_, ?_, ?_, ?_, ?_, ?_, ?_, ?_, ?_, ?_, ?_, ?_, ?_, ?_, ?_, ?_, ?_⟩ <;> simp only
  · intro u hu; rw [h.out u hu]; rfl
  · exact h.cR.trans (num_map n _ _ _ (by intro x; cases x <;> rfl)).symm
  · exact h.cW.trans (num_map n _ _ _ (by intro x; cases x <;> rfl)).symm
  · exact h.cWW.trans (num_map n _ _ _ (by intro x; cases x <;> rfl)).symm
  · exact h.cWR.trans (num_map n _ _ _ (by intro x; cases x <;> rfl)).symm
  · exact h.cWR.trans (num_map n _ _ _ (by intro x; cases x <;> rfl)).symm
  · exact h.cE.trans (num_map n _ _ _ (by intro x; cases x <;> rfl)).symm
  · intro u
    simp only [ew]
    rw [← h.qw u, hq]
    simp
  · exact hnd
  · simp [hnm]
  · simp only [Bool.false_eq_true, false_iff]
    rintro ⟨u, hu⟩
    cases hx : s.thr u <;> rw [hx] at hu <;> simp [wake] at hu
  · rw [kK, h.w0, h.k0]; omega
  · rw [kK, h.w0, h.k0]; intro h'; omega
  · intro _; rw [h.cWR]; omega
  · intro _ _ q' e; rw [e] at hnm; simp at hnm
  · simp only [ei]; exact h.cur
  · intro _; trivial

theorem writeUnlock_ok (h : Inv n s) {t : Nat} {e : Bool} (hi : s.thr t = .writing e) (pd : Bool) : ∃ s', s.writeUnlock pd t = some s' ∧ Inv n s' := by
  have ht : t < n := lt_of_busy h (by rw [hi]; simp)
  have c := counts n s.thr t .idle ht
  have cR := c Th.isR; have cW := c Th.isW; have cWW := c Th.isWW; have cWR := c Th.isWR; have cS := c Th.isS; have cE := c Th.isE; have cK := c Th.isK
  simp only [hi, Th.isR, Th.isW, Th.isWW, Th.isWR, Th.isS, Th.isE, Th.isK, b2n, if_true, Bool.false_eq_true, if_false, Nat.add_zero] at cR cW cWW cWR cS cE cK
  have hW : 0 < num n Th.isW s.thr := num_pos ht (by rw [hi]; rfl)
  have hcw := h.cW
  have h1 := h.one
  have hw1 : s.writers = 1 := by omega
  obtain ⟨r0, s0⟩ := h.excl (by omega)
  have hnw : ∀ u b, u ≠ t → s.thr u ≠ .writing b := by
    intro u b hut hu
    have := num_two (p := Th.isW) (f := s.thr) (lt_of_busy h (by rw [hu]; simp)) ht hut (by rw [hu]; rfl) (by rw [hi]; rfl)
    omega
  have hm : Mid n ({ s with writers := 0, curExp := false }.set t .idle) := by
    refine ⟨?_, ?_, ?_, ?_, ?_, ?_, ?_, ?_, ?_, ?_, ?_, ?_, ?_, ?_, ?_, ?_, ?_⟩ <;> simp only [St.set]
    · intro u hu
      rw [if_neg (by omega)]
      exact h.out u hu
    · exact h.cR.trans cR.symm
    · omega
    · exact h.cWW.trans cWW.symm
    · exact h.cWR.trans cWR.symm
    · exact h.cS.trans cS.symm
    · exact h.cE.trans cE.symm
    · intro u
      refine (h.qw u).trans ?_
      constructor
      · rintro ⟨b, hb⟩; exact ⟨b, (set_iff (by rw [hi]; simp) (by simp) u).mpr hb⟩
      · rintro ⟨b, hb⟩; exact ⟨b, (set_iff (by rw [hi]; simp) (by simp) u).mp hb⟩
    · exact h.qnodup
    · exact h.qrd
    · refine h.qin.trans ?_
      constructor
      · rintro ⟨u, hb⟩; exact ⟨u, (set_iff (by rw [hi]; simp) (by simp) u).mpr hb⟩
      · rintro ⟨u, hb⟩; exact ⟨u, (set_iff (by rw [hi]; simp) (by simp) u).mp hb⟩
    · simp only [Bool.false_eq_true, false_iff]
      rintro ⟨u, hu⟩
      by_cases e' : u = t
      · rw [if_pos e'] at hu; cases hu
      · rw [if_neg e'] at hu; exact absurd hu (hnw u true e')
    · exact h.rexp
    · exact r0
    · exact s0
    · omega
  simp only [St.writeUnlock, decide_eq_true hw1, inv, Bool.not_true, Bool.and_false, Bool.false_eq_true, if_false, bind, Option.bind]
  generalize ({ s with writers := 0, curExp := false }.set t .idle) = s1 at hm
  cases hq : s1.queue with
  | nil =>
    have hb : s1.inQueue = false := by
      cases hb : s1.inQueue with
      | false => rfl
      | true => have := hm.qrd.mpr hb; rw [hq] at this; cases this
    have hww : s1.wantW = 0 := by
      rw [hm.cWW]
      rcases Nat.eq_zero_or_pos (num n Th.isWW s1.thr) with h' | h'
      · exact h'
      · obtain ⟨u, hu, hp⟩ := num_exists h'
        exfalso
        cases hx : s1.thr u with
        | waitW x w =>
          cases w with
          | false => have := (hm.qw u).mpr ⟨x, hx⟩; rw [hq] at this; cases this
          | true =>
            have := num_pos (p := Th.isK) (f := s1.thr) hu (by rw [hx]; rfl)
            rw [hm.k0] at this; omega
        | _ => rw [hx] at hp; cases hp
    have hwr : s1.wantR = 0 := by rw [← (mid_empty hm hq).no_unsignaled hb]; exact hm.s0
    refine ⟨s1, ?_, mid_empty hm hq⟩
    simp only [St.signalNext, hq, inv, decide_eq_true hm.s0, decide_eq_true hww, decide_eq_true hwr, List.isEmpty_nil, Bool.not_true, Bool.and_false, Bool.false_eq_true, if_false, if_true, bind, Option.bind, pure]
  | cons i q =>
    cases i with
    | rd =>
      obtain ⟨hp, hi'⟩ := mid_broadcast hm hq
      have hb := hm.qrd.mp (by rw [hq]; simp)
      refine ⟨_, ?_, hi'⟩
      simp only [St.signalNext, St.deq, hq, inv, decide_eq_true hm.s0, gt_iff_lt, decide_eq_true hp, hb, List.isEmpty_cons, Bool.not_true, Bool.and_false, Bool.false_eq_true, if_false, bind, Option.bind, pure]
    | wr u =>
      obtain ⟨x, hx⟩ := (hm.qw u).mp (by rw [hq]; simp)
      have hun : u < n := by
        rcases Nat.lt_or_ge u n with h' | h'
        · exact h'
        · have := hm.out u h'; rw [hx] at this; cases this
      have hp : 0 < s1.wantW := by rw [hm.cWW]; exact num_pos hun (by rw [hx]; rfl)
      refine ⟨_, ?_, mid_signal hm hq⟩
      simp only [St.signalNext, St.deq, hq, inv, decide_eq_true hm.s0, gt_iff_lt, decide_eq_true hp, List.isEmpty_cons, Bool.not_true, Bool.and_false, Bool.false_eq_true, if_false, bind, Option.bind, pure]

theorem readUnlock_ok (h : Inv n s) {t : Nat} (hi : s.thr t = .reading) (pd : Bool) : ∃ s', s.readUnlock pd t = some s' ∧ Inv n s' := by
  have ht : t < n := lt_of_busy h (by rw [hi]; simp)
  have c := counts n s.thr t .idle ht
  have cR := c Th.isR; have cW := c Th.isW; have cWW := c Th.isWW; have cWR := c Th.isWR; have cS := c Th.isS; have cE := c Th.isE; have cK := c Th.isK
  simp only [hi, Th.isR, Th.isW, Th.isWW, Th.isWR, Th.isS, Th.isE, Th.isK, b2n, if_true, Bool.false_eq_true, if_false, Nat.add_zero] at cR cW cWW cWR cS cE cK
  have hR : 0 < num n Th.isR s.thr := num_pos ht (by rw [hi]; rfl)
  have hcr := h.cR
  have hk : s.writers + num n Th.isK s.thr = 0 := by
    rcases Nat.eq_zero_or_pos (s.writers + num n Th.isK s.thr) with h' | h'
    · exact h'
    · have := (h.excl h').1; omega
  have w0 : s.writers = 0 := by omega
  have r0 : 0 < s.readers := by omega
  have hout : ∀ u, n ≤ u → (if u = t then Th.idle else s.thr u) = .idle := by
    intro u hu; rw [if_neg (by omega)]; exact h.out u hu
  have hqw : ∀ u, .wr u ∈ s.queue ↔ ∃ e, (if u = t then Th.idle else s.thr u) = .waitW e false := by
    intro u
    refine (h.qw u).trans ?_
    constructor
    · rintro ⟨b, hb⟩; exact ⟨b, (set_iff (by rw [hi]; simp) (by simp) u).mpr hb⟩
    · rintro ⟨b, hb⟩; exact ⟨b, (set_iff (by rw [hi]; simp) (by simp) u).mp hb⟩
  have hqin : s.inQueue = true ↔ ∃ u, (if u = t then Th.idle else s.thr u) = .waitR false := by
    refine h.qin.trans ?_
    constructor
    · rintro ⟨u, hb⟩; exact ⟨u, (set_iff (by rw [hi]; simp) (by simp) u).mpr hb⟩
    · rintro ⟨u, hb⟩; exact ⟨u, (set_iff (by rw [hi]; simp) (by simp) u).mp hb⟩
  have hcur : s.curExp = true ↔ ∃ u, (if u = t then Th.idle else s.thr u) = .writing true := by
    refine h.cur.trans ?_
    constructor
    · rintro ⟨u, hb⟩; exact ⟨u, (set_iff (by rw [hi]; simp) (by simp) u).mpr hb⟩
    · rintro ⟨u, hb⟩; exact ⟨u, (set_iff (by rw [hi]; simp) (by simp) u).mp hb⟩
  simp only [St.readUnlock, gt_iff_lt, decide_eq_true w0, decide_eq_true r0, inv, Bool.not_true, Bool.and_false, Bool.false_eq_true, if_false, bind, Option.bind]
  by_cases hlast : s.signaled = 0 ∧ s.readers - 1 = 0
  · have hm : Mid n ({ s with readers := s.readers - 1 }.set t .idle) := by
      refine ⟨hout, ?_, ?_, ?_, ?_, ?_, ?_, hqw, h.qnodup, h.qrd, hqin, hcur, h.rexp, w0, hlast.2, hlast.1, ?_⟩ <;> simp only [St.set]
      · omega
      · exact h.cW.trans cW.symm
      · exact h.cWW.trans cWW.symm
      · exact h.cWR.trans cWR.symm
      · exact h.cS.trans cS.symm
      · exact h.cE.trans cE.symm
      · omega
    have hqe : ({ s with readers := s.readers - 1 }.set t .idle).queue = s.queue := rfl
    have hwe : ({ s with readers := s.readers - 1 }.set t .idle).wantW = s.wantW := rfl
    generalize ({ s with readers := s.readers - 1 }.set t .idle) = s1 at hm hqe hwe
    by_cases hw : 0 < s.wantW
    · have hne : s.queue ≠ [] := by
        rcases h.writer_waits hw with h' | h'
        · omega
        · exact h'
      cases hq : s.queue with
      | nil => exact absurd hq hne
      | cons i q =>
        cases i with
        | rd => exact absurd hq (h.head w0 (by omega) q)
        | wr u =>
          refine ⟨_, ?_, mid_signal hm (hqe.trans hq)⟩
          have h3 : (s1.wantW > 0 && s1.signaled = 0 && s1.readers = 0) = true := by simp [hwe, hw, hm.s0, hm.r0]
          simp only [St.signalWriter, h3, if_true, St.deq, hqe, hq]
    · have hq : s.queue = [] := by
        cases hq : s.queue with
        | nil => rfl
        | cons i q =>
          exfalso
          cases i with
          | rd => exact h.head w0 (by omega) q hq
          | wr u =>
            obtain ⟨x, hx⟩ := (h.qw u).mp (by rw [hq]; simp)
            have := num_pos (p := Th.isWW) (f := s.thr) (lt_of_busy h (by rw [hx]; simp)) (by rw [hx]; rfl)
            rw [← h.cWW] at this
            omega
      refine ⟨_, ?_, mid_empty hm (hqe.trans hq)⟩
      have h3 : (s1.wantW > 0 && s1.signaled = 0 && s1.readers = 0) = false := by simp [hwe]; omega
      simp only [St.signalWriter, h3, Bool.false_eq_true, if_false]
  · have h3 : ((({ s with readers := s.readers - 1 }.set t .idle).wantW > 0 && ({ s with readers := s.readers - 1 }.set t .idle).signaled = 0 && ({ s with readers := s.readers - 1 }.set t .idle).readers = 0) : Bool) = false := by
      simp only [St.set, Bool.and_eq_false_iff, decide_eq_false_iff_not]
      by_cases h4 : s.signaled = 0
      · exact .inr (fun h5 => hlast ⟨h4, h5⟩)
      · exact .inl (.inr h4)
    refine ⟨_, by simp only [St.signalWriter, h3, Bool.false_eq_true, if_false]; rfl, ?_⟩
    refine ⟨hout, ?_, ?_, ?_, ?_, ?_, ?_, hqw, h.qnodup, h.qrd, hqin, ?_, ?_, ?_, ?_, hcur, h.rexp⟩ <;> simp only [St.set]
    · omega
    · exact h.cW.trans cW.symm
    · exact h.cWW.trans cWW.symm
    · exact h.cWR.trans cWR.symm
    · exact h.cS.trans cS.symm
    · exact h.cE.trans cE.symm
    · omega
    · omega
    · omega
    · rw [cK]; exact h.head

/-- A step that can be taken succeeds and keeps the invariant. -/
theorem step_ok (h : Inv n s) {a : Act} (ha : a.tid < n) (hc : can s a) (pd : Bool) : ∃ s', step pd s a = some s' ∧ Inv n s' := by
  cases a with
  | writeLock t e => exact writeLock_ok h ha hc pd e
  | tryWrite t e =>
    have hx := tryWrite_ok (t := t) h ha hc pd e
    rcases hx with ⟨s', hs, hi, _⟩ | ⟨hs, _⟩
    · exact ⟨s', by simp only [step, hs, Option.map_some], hi⟩
    · exact ⟨s, by simp only [step, hs, Option.map_some], h⟩
  | resumeW t e => exact resumeW_ok h hc pd
  | writeUnlock t => obtain ⟨e, he⟩ := hc; exact writeUnlock_ok h he pd
  | readLock t => exact readLock_ok h ha hc pd
  | tryRead t => exact ⟨_, rfl, tryRead_ok h ha hc⟩
  | resumeR t => exact resumeR_ok h hc pd
  | readUnlock t => exact readUnlock_ok h hc pd

theorem reach_inv {pd : Bool} (h : Reach pd n s) : Inv n s := by
  induction h with
  | init => exact inv_init n
  | step _ ha hc hs ih =>
    obtain ⟨s', h1, h2⟩ := step_ok ih ha hc pd
    rw [hs] at h1
    cases h1
    exact h2

end Verif.Rw
