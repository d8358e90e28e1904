import Verif.Rw.Fair
import Verif.Rw.Spec
/-!
C43: the fair readers/writer lock.  Any number of threads, any order of their steps, builds with and without the paranoid checks.
-/
namespace Verif.Rw.Props
open Verif.Rw

variable {pd : Bool} {n : Nat} {s s' : St}

/-- A writer holds the lock alone. -/
theorem writer_alone (h : Reach pd n s) {t u : Nat} (ht : HoldsW s t) (hu : Holds s u) : u = t := by
  have i := reach_inv h
  obtain ⟨e, ht⟩ := ht
  have htn := lt_of_busy i (t := t) (by rw [ht]; simp)
  have hW := num_pos (p := Th.isW) (f := s.thr) htn (by rw [ht]; rfl)
  have h1 := i.one
  have h2 := i.cW
  rcases hu with hu | ⟨e', hu⟩
  · have hun := lt_of_busy i (t := u) (by rw [show s.thr u = .reading from hu]; simp)
    have hR := num_pos (p := Th.isR) (f := s.thr) hun (by rw [show s.thr u = .reading from hu]; rfl)
    have := (i.excl (by omega)).1
    have := i.cR
    omega
  · have hun := lt_of_busy i (t := u) (by rw [hu]; simp)
    by_cases hne : u = t
    · exact hne
    · have := num_two (p := Th.isW) (f := s.thr) hun htn hne (by rw [hu]; rfl) (by rw [ht]; rfl)
      omega

/-- No check of the code fails, and no step dereferences an empty queue. -/
theorem no_check_fails (h : Reach pd n s) {a : Act} (ha : a.tid < n) (hc : can s a) : ∃ s', step pd s a = some s' := by
  obtain ⟨s', h1, _⟩ := step_ok (reach_inv h) ha hc pd
  exact ⟨s', h1⟩

/-- While a thread sleeps, some other one holds the lock or has been told to go on: no wakeup is lost. -/
theorem somebody_is_on (h : Reach pd n s) {t : Nat} (ht : Sleeps s t) : ∃ u, u < n ∧ (Holds s u ∨ LetIn s u) := by
  have i := reach_inv h
  have hq : s.queue ≠ [] := by
    rcases ht with ht | ⟨e, ht⟩
    · have := i.qrd.mpr (i.qin.mpr ⟨t, ht⟩)
      intro e; rw [e] at this; cases this
    · have := (i.qw t).mpr ⟨e, ht⟩
      intro e; rw [e] at this; cases this
  have hp := i.prog hq
  rw [i.cW, i.cR, i.cS] at hp
  have : 0 < num n Th.isW s.thr ∨ 0 < num n Th.isR s.thr ∨ 0 < num n Th.isS s.thr ∨ 0 < num n Th.isK s.thr := by omega
  rcases this with hp | hp | hp | hp <;> obtain ⟨u, hu, hx⟩ := num_exists hp
  · refine ⟨u, hu, .inl (.inr ?_)⟩
    cases e : s.thr u <;> rw [e] at hx <;> first | exact ⟨_, e⟩ | cases hx
  · refine ⟨u, hu, .inl (.inl ?_)⟩
    cases e : s.thr u <;> rw [e] at hx <;> first | exact e | cases hx
  · refine ⟨u, hu, .inr (.inl ?_)⟩
    cases e : s.thr u with
    | waitR b => cases b with
      | true => rfl
      | false => rw [e] at hx; cases hx
    | _ => rw [e] at hx; cases hx
  · refine ⟨u, hu, .inr (.inr ?_)⟩
    cases e : s.thr u with
    | waitW x b => cases b with
      | true => exact ⟨x, rfl⟩
      | false => rw [e] at hx; cases hx
    | _ => rw [e] at hx; cases hx

/-- While a thread sleeps, nobody who asks for the lock gets it at once. -/
theorem no_barging (h : Reach pd n s) {t : Nat} (ht : Sleeps s t) {a : Act} (ha : a.tid < n) (hc : can s a) (hk : a.asks = true) (hs : step pd s a = some s') : ¬ Holds s' a.tid := by
  have i := reach_inv h
  have hq : s.queue ≠ [] := by
    rcases ht with ht | ⟨e, ht⟩
    · have := i.qrd.mpr (i.qin.mpr ⟨t, ht⟩)
      intro e; rw [e] at this; cases this
    · have := (i.qw t).mpr ⟨e, ht⟩
      intro e; rw [e] at this; cases this
  have hp := i.prog hq
  have hww : 0 < s.writers ∨ 0 < s.wantW := by
    by_cases hw : s.writers = 0
    · right
      by_cases hK : num n Th.isK s.thr = 0
      · cases hq' : s.queue with
        | nil => exact absurd hq' hq
        | cons x q =>
          cases x with
          | rd => exact absurd hq' (i.head hw hK q)
          | wr u =>
            obtain ⟨e, he⟩ := (i.qw u).mp (by rw [hq']; simp)
            rw [i.cWW]
            exact num_pos (lt_of_busy i (t := u) (by rw [he]; simp)) (by rw [he]; rfl)
      · obtain ⟨u, hu, hx⟩ := num_exists (Nat.pos_of_ne_zero hK)
        rw [i.cWW]
        refine num_pos hu ?_
        cases e : s.thr u <;> rw [e] at hx <;> first | rfl | cases hx
    · left; omega
  have hidle : s.thr a.tid = .idle := by
    cases a <;> first | exact hc | cases hk
  have hno : ∀ x : Th, (¬ x = .reading) → (∀ e, ¬ x = .writing e) → s'.thr a.tid = x → ¬ Holds s' a.tid := by
    rintro x h1 h2 h3 (h4 | ⟨e, h4⟩)
    · exact h1 (h3.symm.trans h4)
    · exact h2 e (h3.symm.trans h4)
  cases step_eff i ha hc hs with
  | gotW _ _ _ r w sg ww => omega
  | @waitW _ e _ ht' => exact hno (.waitW e false) (by simp) (by simp) (by rw [ht']; simp [St.set, Act.tid])
  | same _ e => subst e; exact hno .idle (by simp) (by simp) hidle
  | gotR _ _ _ w ww => omega
  | waitR ht' => exact hno (.waitR false) (by simp) (by simp) (by rw [ht']; simp [St.set, Act.tid])
  | resumeW => cases hk
  | resumeR => cases hk
  | quiet e => rcases e with rfl | rfl <;> cases hk
  | writer e => rcases e with rfl | rfl <;> cases hk
  | readers e => subst e; cases hk

/-- A reader gets the lock at once if nobody holds it for writing or wants to. -/
theorem reader_at_once (h : Reach pd n s) (hw : ∀ u, ¬ HoldsW s u ∧ ¬ WantsW s u) {t : Nat} (ht : t < n) (hi : s.thr t = .idle) :
    (∃ s', step pd s (.readLock t) = some s' ∧ HoldsR s' t) ∧ (s.tryRead t).2 = true ∧ HoldsR (s.tryRead t).1 t := by
  have i := reach_inv h
  have w0 : s.writers = 0 := by
    rw [i.cW]
    rcases Nat.eq_zero_or_pos (num n Th.isW s.thr) with h' | h'
    · exact h'
    · obtain ⟨u, hu, hx⟩ := num_exists h'
      exfalso
      cases e : s.thr u <;> rw [e] at hx <;> first | exact (hw u).1 ⟨_, e⟩ | cases hx
  have ww0 : s.wantW = 0 := by
    rw [i.cWW]
    rcases Nat.eq_zero_or_pos (num n Th.isWW s.thr) with h' | h'
    · exact h'
    · obtain ⟨u, hu, hx⟩ := num_exists h'
      exfalso
      cases e : s.thr u <;> rw [e] at hx <;> first | exact (hw u).2 ⟨_, _, e⟩ | cases hx
  have hb : (s.writers > 0 || s.wantW > 0) = false := by simp [w0, ww0]
  simp only [step, St.readLock, St.tryRead, hb, Bool.false_eq_true, if_false, pure]
  exact ⟨⟨_, rfl, by simp [HoldsR, St.set]⟩, trivial, by simp [HoldsR, St.set]⟩

/-- A writer gets the lock at once if nobody else has anything to do with it. -/
theorem writer_at_once (h : Reach pd n s) (hw : ∀ u, s.thr u = .idle) {t : Nat} (ht : t < n) (e : Bool) :
    (∃ s', step pd s (.writeLock t e) = some s' ∧ HoldsW s' t) ∧ ∃ s', s.tryWrite pd t e = some (s', true) ∧ HoldsW s' t := by
  have i := reach_inv h
  have z : ∀ p : Th → Bool, p .idle = false → num n p s.thr = 0 := by
    intro p hp
    rcases Nat.eq_zero_or_pos (num n p s.thr) with h' | h'
    · exact h'
    · obtain ⟨u, hu, hx⟩ := num_exists h'
      rw [hw u, hp] at hx; cases hx
  rcases tryWrite_ok i ht (hw t) pd e with ⟨s', h1, _, h3⟩ | ⟨_, h2⟩
  · exact ⟨⟨s', by simp only [step, St.writeLock, h1, bind, Option.bind, if_true, pure], ⟨e, h3⟩⟩, s', h1, ⟨e, h3⟩⟩
  · rw [i.cR, i.cW, i.cS, i.cWW, z _ rfl, z _ rfl, z _ rfl, z _ rfl] at h2
    omega

theorem place_of_sleeps {t : Nat} (ht : Sleeps s t) : ∃ i, item? s t = some i ∧ place s t = some (s.queue.idxOf i) := by
  rcases ht with ht | ⟨e, ht⟩
  · exact ⟨.rd, by simp only [item?, ht], by simp only [place, item?, ht, Option.map_some]⟩
  · exact ⟨.wr t, by simp only [item?, ht], by simp only [place, item?, ht, Option.map_some]⟩

theorem item_congr {t : Nat} (h : s'.thr t = s.thr t) : item? s' t = item? s t := by
  simp only [item?, h]

/-- A sleeping thread advances by one place each time threads are told to go on, is told itself only from the first place, and
otherwise keeps its place, whatever the others ask for. -/
theorem place_step (h : Reach pd n s) {t k : Nat} (ht : Sleeps s t) (hk : place s t = some k) {a : Act} (ha : a.tid < n) (hc : can s a) (hs : step pd s a = some s') :
    (LetsIn s s' ∧ k = 0 ∧ LetIn s' t) ∨ (LetsIn s s' ∧ 0 < k ∧ Sleeps s' t ∧ place s' t = some (k - 1)) ∨ (¬ LetsIn s s' ∧ Sleeps s' t ∧ place s' t = some k) := by
  have i := reach_inv h
  obtain ⟨it, h1, h2⟩ := place_of_sleeps ht
  rw [h2] at hk
  cases hk
  have hmem := item_mem i h1
  have hsl : ∀ s2 : St, s2.thr t = s.thr t → Sleeps s2 t := by
    intro s2 e; simpa only [Sleeps, e] using ht
  have hpl : ∀ s2 : St, s2.thr t = s.thr t → place s2 t = some (s2.queue.idxOf it) := by
    intro s2 e
    simp only [place, item_congr (s' := s2) e, h1, Option.map_some]
  -- a step in which one thread goes from a condition to one that is not "let in"
  have setcase : ∀ (v : Nat) (x : Th), s'.thr = (s.set v x).thr → (s'.queue = s.queue ∨ ∃ j, s'.queue = s.queue ++ [j]) → v ≠ t → (x ≠ .waitR true) → (∀ e, x ≠ .waitW e true) →
      (¬ LetsIn s s' ∧ Sleeps s' t ∧ place s' t = some (s.queue.idxOf it)) := by
    intro v x e1 e2 hv hx1 hx2
    have et : s'.thr t = s.thr t := by rw [e1]; simp [St.set, Ne.symm hv]
    refine ⟨?_, hsl _ et, ?_⟩
    · rintro ⟨u, hu1, hu2⟩
      by_cases huv : u = v
      · subst huv
        have : s'.thr u = x := by rw [e1]; simp [St.set]
        rcases hu2 with hu2 | ⟨e, hu2⟩
        · exact hx1 (this.symm.trans hu2)
        · exact hx2 e (this.symm.trans hu2)
      · have : s'.thr u = s.thr u := by rw [e1]; simp [St.set, huv]
        rcases hu1 with hu1 | ⟨e, hu1⟩ <;> rcases hu2 with hu2 | ⟨e', hu2⟩ <;> rw [this, hu1] at hu2 <;> cases hu2
    · rw [hpl _ et]
      rcases e2 with e2 | ⟨j, e2⟩ <;> rw [e2]
      rw [idx_append hmem]
  have htne : ∀ (v : Nat) (x : Th), s.thr v = x → x ≠ .waitR false → (∀ e, x ≠ .waitW e false) → v ≠ t := by
    rintro v x hv g1 g2 rfl
    rcases ht with ht | ⟨e, ht⟩
    · exact g1 (hv.symm.trans ht)
    · exact g2 e (hv.symm.trans ht)
  cases step_eff i ha hc hs with
  | gotW e1 e2 e3 =>
    refine .inr (.inr (setcase _ _ e2 (.inl e3) ?_ (by simp) (by simp)))
    rcases e1 with rfl | rfl <;> exact htne _ _ hc (by simp) (by simp)
  | waitW e2 e3 => exact .inr (.inr (setcase _ _ e2 (.inr ⟨_, e3⟩) (htne _ _ hc (by simp) (by simp)) (by simp) (by simp)))
  | same _ e =>
    subst e
    refine .inr (.inr ⟨?_, ht, h2⟩)
    rintro ⟨u, hu1, hu2⟩
    rcases hu1 with hu1 | ⟨e, hu1⟩ <;> rcases hu2 with hu2 | ⟨e', hu2⟩ <;> rw [hu1] at hu2 <;> cases hu2
  | gotR e1 e2 e3 =>
    refine .inr (.inr (setcase _ _ e2 (.inl e3) ?_ (by simp) (by simp)))
    rcases e1 with rfl | rfl <;> exact htne _ _ hc (by simp) (by simp)
  | waitR e2 e3 =>
    refine .inr (.inr (setcase _ _ e2 ?_ (htne _ _ hc (by simp) (by simp)) (by simp) (by simp)))
    rcases e3 with ⟨_, e3⟩ | ⟨_, e3⟩
    · exact .inl e3
    · exact .inr ⟨_, e3⟩
  | resumeW e2 e3 => exact .inr (.inr (setcase _ _ e2 (.inl e3) (htne _ _ hc (by simp) (by simp)) (by simp) (by simp)))
  | resumeR e2 e3 => exact .inr (.inr (setcase _ _ e2 (.inl e3) (htne _ _ hc (by simp) (by simp)) (by simp) (by simp)))
  | quiet e1 e2 e3 =>
    refine .inr (.inr (setcase _ _ e2 (.inl e3) ?_ (by simp) (by simp)))
    rcases e1 with rfl | rfl
    · obtain ⟨e, hc⟩ := hc; exact htne _ _ hc (by simp) (by simp)
    · exact htne _ _ hc (by simp) (by simp)
  | @writer _ v u e _ e1 e2 e3 e4 =>
    have hv : v ≠ t := by
      rcases e1 with rfl | rfl
      · obtain ⟨e, hc⟩ := hc; exact htne _ _ hc (by simp) (by simp)
      · exact htne _ _ hc (by simp) (by simp)
    have hlet : LetsIn s s' := ⟨u, .inr ⟨e, e2⟩, .inr ⟨e, by rw [e3]; simp [St.set]⟩⟩
    by_cases hut : u = t
    · subst hut
      left
      refine ⟨hlet, ?_, .inr ⟨e, by rw [e3]; simp [St.set]⟩⟩
      have : it = .wr u := by simp only [item?, e2] at h1; exact (Option.some.inj h1).symm
      rw [e4, this]; simp
    · right; left
      have et : s'.thr t = s.thr t := by rw [e3]; simp [St.set, Ne.symm hv, Ne.symm hut]
      have hne : it ≠ .wr u := by
        simp only [item?] at h1
        split at h1 <;> cases h1
        · simp
        · intro e'; cases e'; exact hut rfl
      have := idx_tail (l := s'.queue) hne
      rw [← e4] at this
      refine ⟨hlet, by omega, hsl _ et, ?_⟩
      rw [hpl _ et, this]; rfl
  | @readers _ v _ e1 e2 e3 =>
    subst e1
    obtain ⟨e, hcw⟩ := hc
    have hv : v ≠ t := htne _ _ hcw (by simp) (by simp)
    have hin := i.qrd.mp (by rw [e3]; simp)
    obtain ⟨u, hu⟩ := i.qin.mp hin
    have huv : u ≠ v := by rintro rfl; rw [hu] at hcw; cases hcw
    have hlet : LetsIn s s' := ⟨u, .inl hu, .inl (by rw [e2]; simp [St.set, huv, hu, wake])⟩
    rcases ht with ht | ⟨x, ht⟩
    · left
      refine ⟨hlet, ?_, .inl (by rw [e2]; simp [St.set, Ne.symm hv, ht, wake])⟩
      have : it = .rd := by simp only [item?, ht] at h1; exact (Option.some.inj h1).symm
      rw [e3, this]; simp
    · right; left
      have et : s'.thr t = s.thr t := by rw [e2]; simp [St.set, Ne.symm hv, ht, wake]
      have hne : it ≠ .rd := by
        simp only [item?, ht] at h1; cases h1; simp
      have := idx_tail (l := s'.queue) hne
      rw [← e3] at this
      refine ⟨hlet, by omega, hsl _ et, ?_⟩
      rw [hpl _ et, this]; rfl

theorem asleep_reach (h : Reach pd n s) {m t : Nat} (hr : Asleep pd n t s m s') : Reach pd n s' ∧ Sleeps s' t ∧ Sleeps s t := by
  induction hr with
  | nil hs => exact ⟨h, hs, hs⟩
  | lets _ ha hc hs _ h2 ih => exact ⟨.step ih.1 ha hc hs, h2, ih.2.2⟩
  | other _ ha hc hs _ h2 ih => exact ⟨.step ih.1 ha hc hs, h2, ih.2.2⟩

/-- How long a thread can be passed over: as long as it sleeps, others are told to go on at most as many times as there were turns
before its own, whatever has been asked for in the meantime; and at no time are there more turns than threads. -/
theorem bounded_overtaking (h : Reach pd n s) {m t k : Nat} (hk : place s t = some k) (hr : Asleep pd n t s m s') : m ≤ k ∧ place s' t = some (k - m) ∧ k ≤ n := by
  have hb : k ≤ n := by
    obtain ⟨it, h1, h2⟩ := place_of_sleeps (asleep_reach h hr).2.2
    rw [h2] at hk
    cases hk
    have := queue_length (reach_inv h)
    have := List.idxOf_lt_length_of_mem (item_mem (reach_inv h) h1)
    omega
  suffices m ≤ k ∧ place s' t = some (k - m) from ⟨this.1, this.2, hb⟩
  clear hb
  induction hr with
  | nil _ => exact ⟨Nat.zero_le _, hk⟩
  | lets hr' ha hc hs hl h2 ih =>
    obtain ⟨i1, i2⟩ := ih
    obtain ⟨r1, r2, _⟩ := asleep_reach h hr'
    rcases place_step r1 r2 i2 ha hc hs with ⟨_, _, h3⟩ | ⟨_, h3, _, h4⟩ | ⟨h3, _⟩
    · rcases h2 with h2 | ⟨e, h2⟩ <;> rcases h3 with h3 | ⟨e', h3⟩ <;> rw [h2] at h3 <;> cases h3
    · exact ⟨by omega, by rw [h4]; congr 1⟩
    · exact absurd hl h3
  | other hr' ha hc hs hl h2 ih =>
    obtain ⟨i1, i2⟩ := ih
    obtain ⟨r1, r2, _⟩ := asleep_reach h hr'
    rcases place_step r1 r2 i2 ha hc hs with ⟨h3, _⟩ | ⟨h3, _⟩ | ⟨_, _, h3⟩
    · exact absurd h3 hl
    · exact absurd h3 hl
    · exact ⟨i1, h3⟩

theorem quiet_reach (h : Reach pd n s) {m : Nat} (hr : Quiet pd n s m s') : Reach pd n s' := by
  induction hr with
  | nil => exact h
  | step _ _ ha hc hs ih => exact .step ih ha hc hs

theorem quiet_weight (h : Reach pd n s) {a : Act} (hk : a.asks = false) (ha : a.tid < n) (hc : can s a) (hs : step pd s a = some s') : sum n s'.thr < sum n s.thr := by
  have one : ∀ (v : Nat) (x : Th), s'.thr = (s.set v x).thr → v < n → x.weight < (s.thr v).weight → sum n s'.thr < sum n s.thr := by
    intro v x e hv hx
    refine sum_lt ?_ hv ?_
    · intro u
      rw [e]
      simp only [St.set]
      split
      · rename_i e'; subst e'; omega
      · exact Nat.le_refl _
    · rw [e]; simpa [St.set] using hx
  cases step_eff (reach_inv h) ha hc hs with
  | gotW e => rcases e with rfl | rfl <;> cases hk
  | waitW => cases hk
  | same e => rcases e with ⟨t, e, rfl⟩ | ⟨t, rfl⟩ <;> cases hk
  | gotR e => rcases e with rfl | rfl <;> cases hk
  | waitR => cases hk
  | @resumeW t e _ e1 => exact one t _ e1 ha (by rw [show s.thr t = .waitW e true from hc]; exact Nat.lt_succ_self 1)
  | @resumeR t _ e1 => exact one t _ e1 ha (by rw [show s.thr t = .waitR true from hc]; decide)
  | @quiet _ t _ e e1 =>
    have : 0 < (s.thr t).weight ∧ t < n := by
      rcases e with rfl | rfl
      · obtain ⟨x, hc⟩ := hc; rw [hc]; exact ⟨Nat.one_pos, ha⟩
      · rw [show s.thr t = .reading from hc]; exact ⟨Nat.one_pos, ha⟩
    exact one t _ e1 this.2 this.1
  | @writer _ t u x _ e e1 e2 =>
    have : 0 < (s.thr t).weight ∧ t < n ∧ u ≠ t := by
      rcases e with rfl | rfl
      · obtain ⟨y, hc⟩ := hc; rw [hc]; exact ⟨Nat.one_pos, ha, by rintro rfl; rw [hc] at e1; cases e1⟩
      · have hc : s.thr t = .reading := hc
        rw [hc]; exact ⟨Nat.one_pos, ha, by rintro rfl; rw [hc] at e1; cases e1⟩
    refine sum_lt ?_ this.2.1 ?_
    · intro v
      rw [e2]
      simp only [St.set]
      split
      · rename_i e'; subst e'; rw [e1]; exact Nat.le_succ 2
      · split
        · exact Nat.zero_le _
        · exact Nat.le_refl _
    · rw [e2]
      simp only [St.set, if_neg (Ne.symm this.2.2), if_true]
      exact this.1
  | @readers _ t _ e e1 =>
    subst e
    obtain ⟨y, hc⟩ := hc
    refine sum_lt ?_ ha ?_
    · intro v
      rw [e1]
      refine Nat.le_trans (weight_wake _) ?_
      simp only [St.set]
      split
      · exact Nat.zero_le _
      · exact Nat.le_refl _
    · rw [e1]
      simp only [St.set, Act.tid, if_true, hc]
      exact Nat.one_pos

/-- If nobody asks for the lock any more, everybody who waits gets it: there are at most three steps for each thread, and when no step is left
nobody waits for the lock or holds it. -/
theorem drains (h : Reach pd n s) {m : Nat} (hr : Quiet pd n s m s') : m ≤ 3 * n ∧ ((∀ a : Act, a.asks = false → a.tid < n → ¬ can s' a) → ∀ t, s'.thr t = .idle) := by
  constructor
  · suffices sum n s'.thr + m ≤ sum n s.thr by have := sum_bound n s.thr; omega
    induction hr with
    | nil => exact Nat.le_refl _
    | step hr' hk ha hc hs ih =>
      have := quiet_weight (quiet_reach h hr') hk ha hc hs
      have := ih
      omega
  · intro hno t
    have hr' := quiet_reach h hr
    have i := reach_inv hr'
    have busy : ∀ u, ¬ (Holds s' u ∨ LetIn s' u) := by
      intro u hu
      have hun : u < n := by
        refine lt_of_busy i (t := u) ?_
        rcases hu with (hu | ⟨e, hu⟩) | (hu | ⟨e, hu⟩)
        · rw [show s'.thr u = .reading from hu]; simp
        · rw [hu]; simp
        · rw [hu]; simp
        · rw [hu]; simp
      rcases hu with (hu | ⟨e, hu⟩) | (hu | ⟨e, hu⟩)
      · exact hno (.readUnlock u) rfl hun hu
      · exact hno (.writeUnlock u) rfl hun ⟨e, hu⟩
      · exact hno (.resumeR u) rfl hun hu
      · exact hno (.resumeW u e) rfl hun hu
    have sl : ¬ Sleeps s' t := by
      intro hs
      obtain ⟨u, _, hu⟩ := somebody_is_on hr' hs
      exact busy u hu
    cases e : s'.thr t with
    | idle => rfl
    | reading => exact absurd (.inl (.inl e)) (busy t)
    | writing x => exact absurd (.inl (.inr ⟨x, e⟩)) (busy t)
    | waitR w =>
      cases w with
      | false => exact absurd (.inl e) sl
      | true => exact absurd (.inr (.inl e)) (busy t)
    | waitW x w =>
      cases w with
      | false => exact absurd (.inr ⟨x, e⟩) sl
      | true => exact absurd (.inr (.inr ⟨x, e⟩)) (busy t)

/-- The lock is expensive to wait for as a writer exactly if some thread that holds it or wants it for writing said so. -/
theorem write_expensive (h : Reach pd n s) : s.writeIsExpensive = true ↔ ∃ t, s.thr t = .writing true ∨ ∃ w, s.thr t = .waitW true w := by
  have i := reach_inv h
  simp only [St.writeIsExpensive, Bool.or_eq_true, decide_eq_true_eq, gt_iff_lt]
  rw [i.cE, i.cur]
  constructor
  · rintro (h1 | ⟨t, h1⟩)
    · obtain ⟨t, ht, hx⟩ := num_exists h1
      refine ⟨t, .inr ?_⟩
      cases e : s.thr t with
      | waitW x w => rw [e] at hx; cases x with
        | true => exact ⟨w, rfl⟩
        | false => cases hx
      | _ => rw [e] at hx; cases hx
    · exact ⟨t, .inl h1⟩
  · rintro ⟨t, h1 | ⟨w, h1⟩⟩
    · exact .inr ⟨t, h1⟩
    · exact .inl (num_pos (lt_of_busy i (t := t) (by rw [h1]; simp)) (by rw [h1]; rfl))

/-- With no reader asleep, the same holds of reading: the answer says whether a reader that asks now may have to wait for an expensive writer. -/
theorem read_expensive (h : Reach pd n s) (hq : ∀ t, s.thr t ≠ .waitR false) : s.readIsExpensive = true ↔ ∃ t, s.thr t = .writing true ∨ ∃ w, s.thr t = .waitW true w := by
  have i := reach_inv h
  have : s.inQueue = false := by
    cases e : s.inQueue with
    | false => rfl
    | true => obtain ⟨t, ht⟩ := i.qin.mp e; exact absurd ht (hq t)
  rw [← write_expensive h]
  simp only [St.readIsExpensive, this, Bool.false_eq_true, if_false, St.writeIsExpensive, Bool.or_comm]

/-! ### Cases -/

/-- Four threads: a writer, behind it a reader, then a writer, then another reader that joins the first. -/
def acts : List Act := [.writeLock 0 true, .readLock 1, .writeLock 2 false, .readLock 3]

def go (pd : Bool) (s : St) : List Act → Option St
  | [] => some s
  | a :: l => (step pd s a).bind (fun s => go pd s l)

/-- The first four conditions and the queue. -/
def view (s : St) : List Th × List Item := ((List.range 4).map s.thr, s.queue)

example : (go true St.init acts).map view = some ([.writing true, .waitR false, .waitW false false, .waitR false], [.rd, .wr 2]) := by decide +kernel

/-- The writer leaves: both readers are let in, the second writer after them. -/
example : (go true St.init (acts ++ [.writeUnlock 0])).map view = some ([.idle, .waitR true, .waitW false false, .waitR true], [.wr 2]) := by decide +kernel

example : (go true St.init (acts ++ [.writeUnlock 0, .resumeR 1, .readUnlock 1, .resumeR 3, .readUnlock 3])).map view = some ([.idle, .idle, .waitW false true, .idle], []) := by decide +kernel

theorem go_reach (h : Reach pd n s) (l : List Act) (hl : ∀ a ∈ l, a.tid < n) (hc : ∀ l1 a l2 s1, l = l1 ++ a :: l2 → go pd s l1 = some s1 → can s1 a) (hg : go pd s l = some s') : Reach pd n s' := by
  induction l generalizing s with
  | nil => simp only [go] at hg; cases hg; exact h
  | cons a l ih =>
    simp only [go] at hg
    cases e : step pd s a with
    | none => rw [e] at hg; cases hg
    | some s1 =>
      rw [e] at hg
      refine ih (.step h (hl a (by simp)) (hc [] a l s rfl rfl) e) (fun b hb => hl b (by simp [hb])) ?_ hg
      intro l1 b l2 s2 e1 e2
      refine hc (a :: l1) b l2 s2 (by rw [e1]; rfl) ?_
      simp only [go, e, Option.bind]
      exact e2

/-- The state of the first case is reachable: in it a thread sleeps behind one turn, and another holds the lock. -/
theorem case_reach : ∃ s, Reach true 4 s ∧ HoldsW s 0 ∧ Sleeps s 1 ∧ Sleeps s 2 ∧ place s 2 = some 1 ∧ s.thr 3 = .idle := by
  have h0 : Reach true 4 St.init := .init
  obtain ⟨s1, e1⟩ := no_check_fails h0 (a := .writeLock 0 true) (by decide) rfl
  have h1 := h0.step (a := .writeLock 0 true) (by decide) rfl e1
  have v1 : s1 = (St.writeLock true St.init 0 true).get (by rfl) := by
    have : step true St.init (.writeLock 0 true) = some ((St.writeLock true St.init 0 true).get (by rfl)) := by rfl
    exact Option.some.inj (e1.symm.trans this)
  subst v1
  obtain ⟨s2, e2⟩ := no_check_fails h1 (a := .readLock 1) (by decide) rfl
  have h2 := h1.step (a := .readLock 1) (by decide) rfl e2
  have v2 : some s2 = go true St.init [.writeLock 0 true, .readLock 1] := e2.symm
  obtain ⟨s3, e3⟩ := no_check_fails h2 (a := .writeLock 2 false) (by decide) (by cases v2; rfl)
  have h3 := h2.step (a := .writeLock 2 false) (by decide) (by cases v2; rfl) e3
  cases v2
  have v3 : some s3 = go true St.init [.writeLock 0 true, .readLock 1, .writeLock 2 false] := e3.symm
  cases v3
  exact ⟨_, h3, ⟨true, rfl⟩, .inl rfl, .inr ⟨false, rfl⟩, by decide +kernel, rfl⟩

/-- `toku_cond_wait` may end without a signal.  The code does not look again: a writer whose wait ends so, while a reader holds the
lock, takes it, in a build without the paranoid checks. -/
theorem spurious_wakeup_breaks_exclusion : ∃ s s', Reach false 2 s ∧ HoldsR s 0 ∧ Sleeps s 1 ∧ s.resumeW false 1 false = some s' ∧ HoldsR s' 0 ∧ HoldsW s' 1 := by
  have h0 : Reach false 2 St.init := .init
  obtain ⟨s1, e1⟩ := no_check_fails h0 (a := .readLock 0) (by decide) rfl
  have h1 := h0.step (a := .readLock 0) (by decide) rfl e1
  have v1 : some s1 = go false St.init [.readLock 0] := e1.symm
  cases v1
  obtain ⟨s2, e2⟩ := no_check_fails h1 (a := .writeLock 1 false) (by decide) rfl
  have h2 := h1.step (a := .writeLock 1 false) (by decide) rfl e2
  have v2 : some s2 = go false St.init [.readLock 0, .writeLock 1 false] := e2.symm
  cases v2
  exact ⟨_, _, h2, rfl, .inr ⟨false, rfl⟩, rfl, rfl, ⟨false, rfl⟩⟩

end Verif.Rw.Props
