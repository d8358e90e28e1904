import Verif.Rw.Plain
import Verif.Rw.Step
/-!
The invariant of the plain lock.
-/
namespace Verif.Rw

set_option linter.unusedVariables false
set_option linter.unusedSimpArgs false

variable {n : Nat} {s : P}

/-- A reader that sleeps. -/
def Th.isZ : Th → Bool
  | .waitR false => true
  | _ => false

structure PInv (n : Nat) (s : P) : Prop where
  out : ∀ t, n ≤ t → s.thr t = .idle
  cR : s.reader = num n Th.isR s.thr
  cW : s.writer = num n Th.isW s.thr
  cWW : s.wantW = num n Th.isWW s.thr
  cWR : s.wantR = num n Th.isWR s.thr
  one : s.writer ≤ 1
  excl : 0 < s.writer → s.reader = 0
  wk : s.reader = 0 → s.writer = 0 → 0 < s.wantW → 0 < num n Th.isK s.thr
  wr : s.writer = 0 → s.wantW = 0 → num n Th.isZ s.thr = 0

theorem pinv_init (n : Nat) : PInv n P.init := by
  refine ⟨fun _ _ => rfl, (num_idle n _ rfl).symm, (num_idle n _ rfl).symm, (num_idle n _ rfl).symm, (num_idle n _ rfl).symm, by simp [P.init], by simp [P.init], by simp [P.init], ?_⟩
  intro _ _
  exact num_idle n _ rfl

theorem PInv.lt (h : PInv n s) {t : Nat} (ht : s.thr t ≠ .idle) : t < n := by
  by_cases e : n ≤ t
  · exact absurd (h.out t e) ht
  · omega

theorem isZ_le (n : Nat) (f : Nat → Th) : num n Th.isZ f ≤ num n Th.isWR f := by
  induction n with
  | zero => exact Nat.le_refl _
  | succ n ih =>
    rw [num_succ, num_succ]
    cases e : f n with
    | waitR b => cases b <;> simp [Th.isZ, Th.isWR] <;> omega
    | _ => simp [Th.isZ, Th.isWR]; omega

/-- Either all the writers that wait are awake or one of them sleeps. -/
theorem awake_or (n : Nat) (f : Nat → Th) : num n Th.isK f = num n Th.isWW f ∨ ∃ u, u < n ∧ ∃ e, f u = .waitW e false := by
  induction n with
  | zero => exact .inl rfl
  | succ n ih =>
    rcases ih with ih | ⟨u, hu, he⟩
    · rw [num_succ, num_succ, ih]
      cases e : f n with
      | waitW x b =>
        cases b with
        | true => exact .inl rfl
        | false => exact .inr ⟨n, by omega, x, e⟩
      | _ => exact .inl rfl
    · exact .inr ⟨u, by omega, he⟩

/-- One thread changes. -/
theorem pset (h : PInv n s) {t : Nat} (ht : t < n) (x : Th) (s1 : P) (h1 : s1.thr = s.thr)
    (hs : s1.reader + b2n (s.thr t).isR = s.reader + b2n x.isR ∧ s1.writer + b2n (s.thr t).isW = s.writer + b2n x.isW ∧ s1.wantW + b2n (s.thr t).isWW = s.wantW + b2n x.isWW ∧ s1.wantR + b2n (s.thr t).isWR = s.wantR + b2n x.isWR)
    (ho : s1.writer ≤ 1) (he : 0 < s1.writer → s1.reader = 0)
    (hk : s1.reader = 0 → s1.writer = 0 → 0 < s1.wantW → 0 < num n Th.isK (s1.set t x).thr)
    (hr : s1.writer = 0 → s1.wantW = 0 → num n Th.isZ (s1.set t x).thr = 0) : PInv n (s1.set t x) := by
  have c := counts n s.thr t x ht
  have cR := c Th.isR; have cW := c Th.isW; have cWW := c Th.isWW; have cWR := c Th.isWR
  have e : (s1.set t x).thr = fun u => if u = t then x else s.thr u := by simp only [P.set, h1]
  have d1 := h.cR; have d2 := h.cW; have d3 := h.cWW; have d4 := h.cWR
  refine ⟨?_, ?_, ?_, ?_, ?_, ho, he, hk, hr⟩
  · intro u hu
    rw [e]
    simp only [if_neg (show ¬ u = t by omega)]
    exact h.out u hu
  all_goals rw [e]; simp only [P.set]; omega

theorem pnum_set (s : P) {t : Nat} (ht : t < n) (x : Th) (p : Th → Bool) : num n p (s.set t x).thr + b2n (p (s.thr t)) = num n p s.thr + b2n (p x) := counts n s.thr t x ht p

theorem preadLock (h : PInv n s) {t : Nat} (ht : t < n) (hi : s.thr t = .idle) : PInv n (s.readLock t) := by
  have hone := h.one; have hex := h.excl; have hwk := h.wk; have hwr := h.wr
  simp only [P.readLock]
  split
  · rename_i hb
    simp only [Bool.or_eq_true, decide_eq_true_eq, gt_iff_lt] at hb
    have k1 := pnum_set { s with wantR := s.wantR + 1 } ht (.waitR false) Th.isK
    simp only [hi, Th.isK, b2n, Bool.false_eq_true, if_false, Nat.add_zero] at k1
    refine pset h ht _ { s with wantR := s.wantR + 1 } rfl (by simp [hi, Th.isR, Th.isW, Th.isWW, Th.isWR, b2n]) hone hex ?_ ?_
    · intro a b c; rw [k1]; exact hwk a b c
    · intro a b; simp only at a b; omega
  · rename_i hb
    simp only [Bool.or_eq_true, decide_eq_true_eq, gt_iff_lt] at hb
    have k2 := pnum_set { s with reader := s.reader + 1 } ht .reading Th.isZ
    simp only [hi, Th.isZ, b2n, Bool.false_eq_true, if_false, Nat.add_zero] at k2
    refine pset h ht _ { s with reader := s.reader + 1 } rfl (by simp [hi, Th.isR, Th.isW, Th.isWW, Th.isWR, b2n]) hone (by simp only; omega) (by simp only; omega) ?_
    intro a b; rw [k2]; exact hwr a b

theorem presumeR (h : PInv n s) {t : Nat} (hi : s.thr t = .waitR true) : PInv n (s.resumeR t) := by
  have ht := h.lt (t := t) (by rw [hi]; simp)
  have hone := h.one; have hex := h.excl; have hwk := h.wk; have hwr := h.wr
  have hpos : 0 < s.wantR := by rw [h.cWR]; exact num_pos ht (by rw [hi]; rfl)
  simp only [P.resumeR]
  split
  · rename_i hb
    simp only [Bool.or_eq_true, decide_eq_true_eq, gt_iff_lt] at hb
    have k1 := pnum_set s ht (.waitR false) Th.isK
    simp only [hi, Th.isK, b2n, Bool.false_eq_true, if_false, Nat.add_zero] at k1
    refine pset h ht _ s rfl (by simp [hi, Th.isR, Th.isW, Th.isWW, Th.isWR, b2n]) hone hex ?_ ?_
    · intro a b c; rw [k1]; exact hwk a b c
    · intro a b; omega
  · rename_i hb
    simp only [Bool.or_eq_true, decide_eq_true_eq, gt_iff_lt] at hb
    have k2 := pnum_set { s with wantR := s.wantR - 1, reader := s.reader + 1 } ht .reading Th.isZ
    simp only [hi, Th.isZ, b2n, Bool.false_eq_true, if_false, Nat.add_zero] at k2
    refine pset h ht _ { s with wantR := s.wantR - 1, reader := s.reader + 1 } rfl (by simp [hi, Th.isR, Th.isW, Th.isWW, Th.isWR, b2n]; omega) hone (by simp only; omega) (by simp only; omega) ?_
    intro a b; rw [k2]; exact hwr a b

theorem pwriteLock (h : PInv n s) {t : Nat} (ht : t < n) (hi : s.thr t = .idle) : PInv n (s.writeLock t) := by
  have hone := h.one; have hex := h.excl; have hwk := h.wk; have hwr := h.wr
  simp only [P.writeLock]
  split
  · rename_i hb
    simp only [Bool.or_eq_true, decide_eq_true_eq, gt_iff_lt] at hb
    refine pset h ht _ { s with wantW := s.wantW + 1 } rfl (by simp [hi, Th.isR, Th.isW, Th.isWW, Th.isWR, b2n]) hone hex ?_ ?_
    · intro a b c; simp only at a b; omega
    · intro a b; simp only at b; omega
  · rename_i hb
    simp only [Bool.or_eq_true, decide_eq_true_eq, gt_iff_lt] at hb
    exact pset h ht _ { s with writer := s.writer + 1 } rfl (by simp [hi, Th.isR, Th.isW, Th.isWW, Th.isWR, b2n]) (by simp only; omega) (by simp only; omega) (by simp only; omega) (by simp only; omega)

theorem presumeW (h : PInv n s) {t : Nat} {e : Bool} (hi : s.thr t = .waitW e true) : PInv n (s.resumeW t) := by
  have ht := h.lt (t := t) (by rw [hi]; simp)
  have hone := h.one; have hex := h.excl; have hwk := h.wk; have hwr := h.wr
  have hpos : 0 < s.wantW := by rw [h.cWW]; exact num_pos ht (by rw [hi]; rfl)
  simp only [P.resumeW]
  split
  · rename_i hb
    simp only [Bool.or_eq_true, decide_eq_true_eq, gt_iff_lt] at hb
    refine pset h ht _ s rfl (by simp [hi, Th.isR, Th.isW, Th.isWW, Th.isWR, b2n]) hone hex ?_ ?_
    · intro a b c; omega
    · intro a b; omega
  · rename_i hb
    simp only [Bool.or_eq_true, decide_eq_true_eq, gt_iff_lt] at hb
    exact pset h ht _ { s with wantW := s.wantW - 1, writer := s.writer + 1 } rfl (by simp [hi, Th.isR, Th.isW, Th.isWW, Th.isWR, b2n]; omega) (by simp only; omega) (by simp only; omega) (by simp only; omega) (by simp only; omega)

theorem pwake (h : PInv n s) (t : Nat) : PInv n (s.wake t) := by
  have hone := h.one; have hex := h.excl; have hwk := h.wk; have hwr := h.wr
  simp only [P.wake]
  split
  · rename_i b hi
    have ht := h.lt (t := t) (by rw [hi]; simp)
    have k1 := pnum_set s ht (.waitR true) Th.isK
    have k2 := pnum_set s ht (.waitR true) Th.isZ
    simp only [hi, Th.isK, b2n, Bool.false_eq_true, if_false, Nat.add_zero] at k1
    have z : b2n (Th.waitR true).isZ = 0 := rfl
    refine pset h ht _ s rfl (by simp [hi, Th.isR, Th.isW, Th.isWW, Th.isWR, b2n]) hone hex ?_ ?_
    · intro a b c; rw [k1]; exact hwk a b c
    · intro a b; have := hwr a b; omega
  · rename_i e b hi
    have ht := h.lt (t := t) (by rw [hi]; simp)
    have k1 := pnum_set s ht (.waitW e true) Th.isK
    have k2 := pnum_set s ht (.waitW e true) Th.isZ
    have z1 : b2n (Th.waitW e true).isK = 1 := rfl
    have z2 : b2n (Th.waitW e true).isZ = 0 := rfl
    have z3 : b2n (Th.waitW e b).isZ = 0 := rfl
    have z4 : b2n (Th.waitW e b).isK ≤ 1 := by simp only [b2n]; split <;> omega
    rw [hi] at k1 k2
    refine pset h ht _ s rfl (by simp [hi, Th.isR, Th.isW, Th.isWW, Th.isWR, b2n]) hone hex ?_ ?_
    · intro a b c; have := hwk a b c; omega
    · intro a b; have := hwr a b; omega
  · exact h

/-- The lock after a holder has left, before anybody is woken. -/
structure PMid (n : Nat) (s : P) : Prop where
  out : ∀ t, n ≤ t → s.thr t = .idle
  cR : s.reader = num n Th.isR s.thr
  cW : s.writer = num n Th.isW s.thr
  cWW : s.wantW = num n Th.isWW s.thr
  cWR : s.wantR = num n Th.isWR s.thr
  w0 : s.writer = 0

theorem pmid_signal (h : PMid n s) {who : Nat} (ha : s.aim who) (hw : 0 < s.wantW) : PInv n (s.signal who) := by
  simp only [P.signal]
  split
  · rename_i e he
    have hwn : who < n := by
      by_cases e' : n ≤ who
      · have := h.out who e'; rw [he] at this; cases this
      · omega
    have c := counts n s.thr who (.waitW e true) hwn
    have cR := c Th.isR; have cW := c Th.isW; have cWW := c Th.isWW; have cWR := c Th.isWR; have cK := c Th.isK
    simp only [he, Th.isR, Th.isW, Th.isWW, Th.isWR, Th.isK, b2n, if_true, Bool.false_eq_true, if_false, Nat.add_zero, Nat.add_right_cancel_iff] at cR cW cWW cWR cK
    refine ⟨?_, h.cR.trans cR.symm, h.cW.trans cW.symm, h.cWW.trans cWW.symm, h.cWR.trans cWR.symm, ?_, ?_, ?_, ?_⟩ <;> simp only [P.set]
    · intro u hu
      rw [if_neg (by omega)]
      exact h.out u hu
    · rw [h.w0]; omega
    · rw [h.w0]; intro h'; omega
    · intro _ _ _; omega
    · intro _ h'; omega
  · rename_i hne
    have hk : num n Th.isK s.thr = num n Th.isWW s.thr := by
      rcases awake_or n s.thr with hk | ⟨u, hu, e, he⟩
      · exact hk
      · obtain ⟨e, he⟩ := ha ⟨u, e, he⟩
        exact absurd he (hne e)
    exact ⟨h.out, h.cR, h.cW, h.cWW, h.cWR, by rw [h.w0]; omega, by rw [h.w0]; intro h'; omega, by intro _ _ _; rw [hk, ← h.cWW]; exact hw, by intro _ h'; omega⟩

theorem pmid_broadcast (h : PMid n s) (hw : s.wantW = 0) : PInv n s.broadcast := by
  have hbr : s.broadcast = { s with thr := fun u => wake (s.thr u) } := by
    simp only [P.broadcast]
    rfl
  rw [hbr]
  refine ⟨?_, ?_, ?_, ?_, ?_, ?_, ?_, ?_, ?_⟩ <;> simp only
  · intro u hu; rw [h.out u hu]; rfl
  · exact h.cR.trans (num_map n _ _ _ (by intro x; cases x <;> rfl)).symm
  · exact h.cW.trans (num_map n _ _ _ (by intro x; cases x <;> rfl)).symm
  · exact h.cWW.trans (num_map n _ _ _ (by intro x; cases x <;> rfl)).symm
  · exact h.cWR.trans (num_map n _ _ _ (by intro x; cases x <;> rfl)).symm
  · rw [h.w0]; omega
  · rw [h.w0]; intro h'; omega
  · intro _ _ _; omega
  · intro _ _
    rw [num_map n Th.isZ (fun _ => false) s.thr (by intro x; cases x <;> rfl)]
    induction n with
    | zero => rfl
    | succ n ih =>
      clear ih
      rcases Nat.eq_zero_or_pos (num (n + 1) (fun _ => false) s.thr) with h' | h'
      · exact h'
      · obtain ⟨u, _, hx⟩ := num_exists h'; cases hx

theorem preadUnlock (h : PInv n s) {t who : Nat} (hi : s.thr t = .reading) (ha : s.aim who) (pd : Bool) : ∃ s', s.readUnlock pd t who = some s' ∧ PInv n s' := by
  have ht := h.lt (t := t) (by rw [hi]; simp)
  have hone := h.one; have hex := h.excl; have hwk := h.wk; have hwr := h.wr
  have hpos : 0 < s.reader := by rw [h.cR]; exact num_pos ht (by rw [hi]; rfl)
  have w0 : s.writer = 0 := by
    rcases Nat.eq_zero_or_pos s.writer with h' | h'
    · exact h'
    · have := hex h'; omega
  have c := counts n s.thr t .idle ht
  have cR := c Th.isR; have cW := c Th.isW; have cWW := c Th.isWW; have cWR := c Th.isWR; have cK := c Th.isK; have cZ := c Th.isZ
  simp only [hi, Th.isR, Th.isW, Th.isWW, Th.isWR, Th.isK, Th.isZ, b2n, if_true, Bool.false_eq_true, if_false, Nat.add_zero] at cR cW cWW cWR cK cZ
  have hm : PMid n ({ s with reader := s.reader - 1 }.set t .idle) := by
    refine ⟨?_, ?_, h.cW.trans cW.symm, h.cWW.trans cWW.symm, h.cWR.trans cWR.symm, w0⟩ <;> simp only [P.set]
    · intro u hu
      rw [if_neg (by omega)]
      exact h.out u hu
    · have := h.cR; omega
  have hs : ∀ v e, ({ s with reader := s.reader - 1 }.set t .idle).thr v = .waitW e false ↔ s.thr v = .waitW e false := by
    intro v e; exact set_iff (by rw [hi]; simp) (by simp) v
  have haim : ({ s with reader := s.reader - 1 }.set t .idle).aim who := by
    rintro ⟨u, e, hu⟩
    obtain ⟨e', he'⟩ := ha ⟨u, e, (hs u e).mp hu⟩
    exact ⟨e', (hs who e').mpr he'⟩
  simp only [P.readUnlock, gt_iff_lt, decide_eq_true hpos, decide_eq_true w0, inv, Bool.not_true, Bool.and_false, Bool.false_eq_true, if_false, bind, Option.bind, pure]
  by_cases hb : s.reader - 1 = 0 ∧ 0 < s.wantW
  · have h3 : (decide (({ s with reader := s.reader - 1 }.set t .idle).reader = 0) && decide (0 < ({ s with reader := s.reader - 1 }.set t .idle).wantW)) = true := by
      simp only [P.set, decide_eq_true hb.1, decide_eq_true hb.2, Bool.and_self]
    simp only [h3, if_true]
    exact ⟨_, rfl, pmid_signal hm haim hb.2⟩
  · have h3 : (decide (({ s with reader := s.reader - 1 }.set t .idle).reader = 0) && decide (0 < ({ s with reader := s.reader - 1 }.set t .idle).wantW)) = false := by
      simp only [P.set, Bool.and_eq_false_iff, decide_eq_false_iff_not]
      omega
    simp only [h3, Bool.false_eq_true, if_false]
    refine ⟨_, rfl, hm.out, hm.cR, hm.cW, hm.cWW, hm.cWR, hone, ?_, ?_, ?_⟩ <;> simp only [P.set]
    · intro h'; omega
    · intro a _ c'; omega
    · intro a b; rw [cZ]; exact hwr a b

theorem pwriteUnlock (h : PInv n s) {t who : Nat} {e : Bool} (hi : s.thr t = .writing e) (ha : s.aim who) (pd : Bool) : ∃ s', s.writeUnlock pd t who = some s' ∧ PInv n s' := by
  have ht := h.lt (t := t) (by rw [hi]; simp)
  have hone := h.one; have hex := h.excl
  have hpos : 0 < s.writer := by rw [h.cW]; exact num_pos ht (by rw [hi]; rfl)
  have w1 : s.writer = 1 := by omega
  have r0 := hex hpos
  have c := counts n s.thr t .idle ht
  have cR := c Th.isR; have cW := c Th.isW; have cWW := c Th.isWW; have cWR := c Th.isWR; have cK := c Th.isK; have cZ := c Th.isZ
  simp only [hi, Th.isR, Th.isW, Th.isWW, Th.isWR, Th.isK, Th.isZ, b2n, if_true, Bool.false_eq_true, if_false, Nat.add_zero] at cR cW cWW cWR cK cZ
  have hm : PMid n ({ s with writer := s.writer - 1 }.set t .idle) := by
    refine ⟨?_, h.cR.trans cR.symm, ?_, h.cWW.trans cWW.symm, h.cWR.trans cWR.symm, by simp only [P.set]; omega⟩ <;> simp only [P.set]
    · intro u hu
      rw [if_neg (by omega)]
      exact h.out u hu
    · have := h.cW; omega
  have hs : ∀ v e, ({ s with writer := s.writer - 1 }.set t .idle).thr v = .waitW e false ↔ s.thr v = .waitW e false := by
    intro v e; exact set_iff (by rw [hi]; simp) (by simp) v
  have haim : ({ s with writer := s.writer - 1 }.set t .idle).aim who := by
    rintro ⟨u, e, hu⟩
    obtain ⟨e', he'⟩ := ha ⟨u, e, (hs u e).mp hu⟩
    exact ⟨e', (hs who e').mpr he'⟩
  simp only [P.writeUnlock, decide_eq_true r0, decide_eq_true w1, inv, Bool.not_true, Bool.and_false, Bool.false_eq_true, if_false, bind, Option.bind, pure]
  have z : num n Th.isZ ({ s with writer := s.writer - 1 }.set t .idle).thr ≤ ({ s with writer := s.writer - 1 }.set t .idle).wantR := by
    rw [hm.cWR]; exact isZ_le n _
  generalize ({ s with writer := s.writer - 1 }.set t .idle) = s1 at hm haim z
  split
  · exact ⟨_, rfl, pmid_signal hm haim (by assumption)⟩
  · split
    · exact ⟨_, rfl, pmid_broadcast hm (by omega)⟩
    · refine ⟨_, rfl, hm.out, hm.cR, hm.cW, hm.cWW, hm.cWR, by rw [hm.w0]; omega, by rw [hm.w0]; intro h'; omega, ?_, ?_⟩
      · intro _ _ h'; omega
      · intro _ _; omega

theorem pstep_ok (h : PInv n s) {a : PAct} (ha : a.tid < n) (hc : pcan s a) (pd : Bool) : ∃ s', pstep pd s a = some s' ∧ PInv n s' := by
  cases a with
  | readLock t => exact ⟨_, rfl, preadLock h ha hc⟩
  | resumeR t => exact ⟨_, rfl, presumeR h hc⟩
  | readUnlock t who => exact preadUnlock h hc.1 hc.2 pd
  | writeLock t => exact ⟨_, rfl, pwriteLock h ha hc⟩
  | resumeW t => obtain ⟨e, he⟩ := hc; exact ⟨_, rfl, presumeW h he⟩
  | writeUnlock t who => obtain ⟨⟨e, he⟩, h2⟩ := hc; exact pwriteUnlock h he h2 pd
  | wake t => exact ⟨_, rfl, pwake h t⟩

theorem preach_inv {pd : Bool} (h : PReach pd n s) : PInv n s := by
  induction h with
  | init => exact pinv_init n
  | step _ ha hc hs ih =>
    obtain ⟨s', h1, h2⟩ := pstep_ok ih ha hc pd
    rw [hs] at h1
    cases h1
    exact h2

end Verif.Rw
