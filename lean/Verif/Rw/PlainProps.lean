import Verif.Rw.PlainInv
/-!
C43, second part: the lock of util/rwlock.h, with waits that may end at any time.
-/
namespace Verif.Rw.Props
open Verif.Rw

variable {pd : Bool} {n : Nat} {s s' : P}

/-- A writer holds the lock alone, even when waits end without a signal. -/
theorem plain_writer_alone (h : PReach pd n s) {t u : Nat} {e : Bool} (ht : s.thr t = .writing e) (hu : s.thr u = .reading ∨ ∃ e', s.thr u = .writing e') : u = t := by
  have i := preach_inv h
  have htn := i.lt (t := t) (by rw [ht]; simp)
  have hW := num_pos (p := Th.isW) (f := s.thr) htn (by rw [ht]; rfl)
  have h1 := i.one
  have h2 := i.cW
  rcases hu with hu | ⟨e', hu⟩
  · have hR := num_pos (p := Th.isR) (f := s.thr) (i.lt (t := u) (by rw [hu]; simp)) (by rw [hu]; rfl)
    have := i.excl (by omega)
    have := i.cR
    omega
  · by_cases hne : u = t
    · exact hne
    · have := num_two (p := Th.isW) (f := s.thr) (i.lt (t := u) (by rw [hu]; simp)) htn hne (by rw [hu]; rfl) (by rw [ht]; rfl)
      omega

theorem plain_no_check_fails (h : PReach pd n s) {a : PAct} (ha : a.tid < n) (hc : pcan s a) : ∃ s', pstep pd s a = some s' := by
  obtain ⟨s', h1, _⟩ := pstep_ok (preach_inv h) ha hc pd
  exact ⟨s', h1⟩

/-- No wakeup is lost: if a writer waits and the lock is free, some waiting writer is awake, and takes the lock if it runs next. -/
theorem plain_writer_awake (h : PReach pd n s) {t : Nat} {e w : Bool} (ht : s.thr t = .waitW e w) (hf : ∀ u, s.thr u ≠ .reading ∧ ∀ e', s.thr u ≠ .writing e') :
    ∃ u e', u < n ∧ s.thr u = .waitW e' true ∧ (s.resumeW u).thr u = .writing false := by
  have i := preach_inv h
  have z : ∀ p : Th → Bool, (∀ u, p (s.thr u) = false) → num n p s.thr = 0 := by
    intro p hp
    rcases Nat.eq_zero_or_pos (num n p s.thr) with h' | h'
    · exact h'
    · obtain ⟨u, hu, hx⟩ := num_exists h'
      rw [hp u] at hx; cases hx
  have r0 : s.reader = 0 := by
    rw [i.cR]; refine z _ (fun u => ?_)
    cases e : s.thr u <;> first | rfl | exact absurd e (hf u).1
  have w0 : s.writer = 0 := by
    rw [i.cW]; refine z _ (fun u => ?_)
    cases e : s.thr u <;> first | rfl | exact absurd e ((hf u).2 _)
  have hww : 0 < s.wantW := by rw [i.cWW]; exact num_pos (i.lt (t := t) (by rw [ht]; simp)) (by rw [ht]; rfl)
  obtain ⟨u, hu, hx⟩ := num_exists (i.wk r0 w0 hww)
  have : ∃ e', s.thr u = .waitW e' true := by
    cases e : s.thr u with
    | waitW x b => rw [e] at hx; cases b with
      | true => exact ⟨x, rfl⟩
      | false => cases hx
    | _ => rw [e] at hx; cases hx
  obtain ⟨e', he'⟩ := this
  exact ⟨u, e', hu, he', by simp [P.resumeW, r0, w0, P.set]⟩

/-- If a reader waits while no writer holds the lock or waits for it, the reader is awake, and takes the lock if it runs next. -/
theorem plain_reader_awake (h : PReach pd n s) {t : Nat} {w : Bool} (ht : s.thr t = .waitR w) (hf : ∀ u e', s.thr u ≠ .writing e' ∧ ∀ w', s.thr u ≠ .waitW e' w') :
    w = true ∧ (s.resumeR t).thr t = .reading := by
  have i := preach_inv h
  have z : ∀ p : Th → Bool, (∀ u, p (s.thr u) = false) → num n p s.thr = 0 := by
    intro p hp
    rcases Nat.eq_zero_or_pos (num n p s.thr) with h' | h'
    · exact h'
    · obtain ⟨u, hu, hx⟩ := num_exists h'
      rw [hp u] at hx; cases hx
  have w0 : s.writer = 0 := by
    rw [i.cW]; refine z _ (fun u => ?_)
    cases e : s.thr u <;> first | rfl | exact absurd e (hf u _).1
  have ww0 : s.wantW = 0 := by
    rw [i.cWW]; refine z _ (fun u => ?_)
    cases e : s.thr u <;> first | rfl | exact absurd e ((hf u _).2 _)
  refine ⟨?_, by simp [P.resumeR, w0, ww0, P.set]⟩
  cases w with
  | true => rfl
  | false =>
    have := num_pos (p := Th.isZ) (f := s.thr) (i.lt (t := t) (by rw [ht]; simp)) (by rw [ht]; rfl)
    rw [i.wr w0 ww0] at this
    omega

/-- A reader that asks does not get the lock while a writer holds it or waits for it: writers go first. -/
theorem plain_writers_first (h : PReach pd n s) {t u : Nat} {e : Bool} (hu : s.thr u = .writing e ∨ ∃ w, s.thr u = .waitW e w) : (s.readLock t).thr t = .waitR false ∧ (s.resumeR t).thr t = .waitR false := by
  have i := preach_inv h
  have hb : (s.writer > 0 || s.wantW > 0) = true := by
    simp only [gt_iff_lt, Bool.or_eq_true, decide_eq_true_eq]
    rcases hu with hu | ⟨w, hu⟩
    · left; rw [i.cW]; exact num_pos (i.lt (t := u) (by rw [hu]; simp)) (by rw [hu]; rfl)
    · right; rw [i.cWW]; exact num_pos (i.lt (t := u) (by rw [hu]; simp)) (by rw [hu]; rfl)
  simp only [P.readLock, P.resumeR, hb, if_true]
  exact ⟨by simp [P.set], by simp [P.set]⟩

/-- The figures the lock reports: who holds it, who waits. -/
theorem plain_counts (h : PReach pd n s) : (s.writer > 0 ↔ ∃ t e, s.thr t = .writing e) ∧ (s.reader > 0 ↔ ∃ t, s.thr t = .reading) ∧ (s.wantW > 0 ↔ ∃ t e w, s.thr t = .waitW e w) ∧ (s.wantR > 0 ↔ ∃ t w, s.thr t = .waitR w) := by
  have i := preach_inv h
  rw [i.cW, i.cR, i.cWW, i.cWR]
  refine ⟨⟨?_, ?_⟩, ⟨?_, ?_⟩, ⟨?_, ?_⟩, ⟨?_, ?_⟩⟩
  · intro hp; obtain ⟨u, hu, hx⟩ := num_exists hp
    cases e : s.thr u <;> rw [e] at hx <;> first | exact ⟨u, _, e⟩ | cases hx
  · rintro ⟨t, e, ht⟩; exact num_pos (i.lt (t := t) (by rw [ht]; simp)) (by rw [ht]; rfl)
  · intro hp; obtain ⟨u, hu, hx⟩ := num_exists hp
    cases e : s.thr u <;> rw [e] at hx <;> first | exact ⟨u, e⟩ | cases hx
  · rintro ⟨t, ht⟩; exact num_pos (i.lt (t := t) (by rw [ht]; simp)) (by rw [ht]; rfl)
  · intro hp; obtain ⟨u, hu, hx⟩ := num_exists hp
    cases e : s.thr u <;> rw [e] at hx <;> first | exact ⟨u, _, _, e⟩ | cases hx
  · rintro ⟨t, e, w, ht⟩; exact num_pos (i.lt (t := t) (by rw [ht]; simp)) (by rw [ht]; rfl)
  · intro hp; obtain ⟨u, hu, hx⟩ := num_exists hp
    cases e : s.thr u <;> rw [e] at hx <;> first | exact ⟨u, _, e⟩ | cases hx
  · rintro ⟨t, w, ht⟩; exact num_pos (i.lt (t := t) (by rw [ht]; simp)) (by rw [ht]; rfl)

/-! ### Cases -/

def pgo (pd : Bool) (s : P) : List PAct → Option P
  | [] => some s
  | a :: l => (pstep pd s a).bind (fun s => pgo pd s l)

def pview (s : P) : List Th := (List.range 4).map s.thr

/-- A signalled writer finds the lock taken by another one and sleeps again; it gets the lock when that one leaves. -/
example : (pgo true P.init [.writeLock 0, .writeLock 1, .readLock 2, .writeUnlock 0 1, .writeLock 3, .resumeW 1]).map pview
    = some [.idle, .waitW false false, .waitR false, .writing false] := by decide +kernel

example : (pgo true P.init [.writeLock 0, .writeLock 1, .readLock 2, .writeUnlock 0 1, .writeLock 3, .resumeW 1, .writeUnlock 3 1, .wake 2, .resumeR 2, .resumeW 1, .writeUnlock 1 0, .resumeR 2]).map pview
    = some [.idle, .idle, .reading, .idle] := by decide +kernel

/-- A state with a holder, a waiting writer and a waiting reader is reachable. -/
theorem plain_case : ∃ s, PReach true 3 s ∧ s.thr 0 = .writing false ∧ s.thr 1 = .waitW false false ∧ s.thr 2 = .waitR false := by
  have h0 : PReach true 3 P.init := .init
  have h1 := h0.step (a := .writeLock 0) (by decide) rfl rfl
  have h2 := h1.step (a := .writeLock 1) (by decide) rfl rfl
  have h3 := h2.step (a := .readLock 2) (by decide) rfl rfl
  exact ⟨_, h3, rfl, rfl, rfl⟩

/-- And one with the lock free and a writer that waits. -/
theorem plain_case_free : ∃ s, PReach true 3 s ∧ s.thr 0 = .idle ∧ s.thr 1 = .waitW false true ∧ s.thr 2 = .waitR false := by
  have h0 : PReach true 3 P.init := .init
  have h1 := h0.step (a := .writeLock 0) (by decide) rfl rfl
  have h2 := h1.step (a := .writeLock 1) (by decide) rfl rfl
  have h3 := h2.step (a := .readLock 2) (by decide) rfl rfl
  have h4 := h3.step (a := .writeUnlock 0 1) (by decide) ⟨⟨false, rfl⟩, fun _ => ⟨false, rfl⟩⟩ rfl
  exact ⟨_, h4, rfl, rfl, rfl⟩

end Verif.Rw.Props
