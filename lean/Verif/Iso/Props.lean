import Verif.Iso.Inv
import Mathlib.Data.Nat.Basic

/-! C67: serializable transactions. -/
namespace Verif.Iso

variable {K V : Type} [LinearOrder K]

/-- C67, what holds.  Transactions read with locking cursors and write under locks, beside each other, with inner
transactions, waits for locks and aborts.  Provided rows do not appear in the unlocked end of a search before its lock is
taken, cursors with bounds have locked them, and no lock is refused in the middle of a bulk fetch:
the committed transactions got the answers they would have got one after another in the order of their commits, every
transaction that is still open has got the answers it would get after all of them, and once there are no transactions the
rows are those that running them one after another leaves behind. -/
theorem C67_one_after_another_partial (init : Store K V) (w : World K V) (h : Reach ⟨false, false, false⟩ init w) :
    Serial init w.done ∧ (∀ t x, w.txns t = some x → Right x.log [afterAll init w.done]) ∧
      ((∀ t, w.txns t = none) → w.rows = afterAll init w.done) := by
  have hi := inv_reach h
  refine ⟨hi.serial, fun t x hx => (hi.each t x hx).right, fun hn => ?_⟩
  funext k
  apply hi.free k
  intro t x hx
  rw [hn t] at hx
  cases hx

/-- ... so there is an order. -/
theorem C67_serializable_partial (init : Store K V) (w : World K V) (h : Reach ⟨false, false, false⟩ init w) :
    Serializable init w.done := ⟨w.done, List.Perm.refl _, (inv_reach h).serial⟩

theorem answer_unique (s : Store K V) (q : Query K) (a b : Option (K × V)) (ha : IsAnswer s q a)
    (hb : IsAnswer s q b) : a = b := by
  cases a with
  | none =>
    cases b with
    | none => rfl
    | some p =>
      obtain ⟨r, v⟩ := p
      have := ha r hb.1 hb.2.1
      rw [hb.2.2.1] at this
      cases this
  | some p =>
    obtain ⟨r, v⟩ := p
    cases b with
    | none =>
      have := hb r ha.1 ha.2.1
      rw [ha.2.2.1] at this
      cases this
    | some p' =>
      obtain ⟨r', v'⟩ := p'
      rcases lt_tri q.dir r r' with h | h | h
      · have := hb.2.2.2 r ha.1 h
        rw [ha.2.2.1] at this
        cases this
      · subst h
        have := ha.2.2.1.symm.trans hb.2.2.1
        cases this
        rfl
      · have := ha.2.2.2 r' hb.1 h
        rw [hb.2.2.1] at this
        cases this

theorem run_asks (l : List (Ev K V)) (st : List (Store K V)) (h : ∀ e ∈ l, ∃ q a, e = Ev.ask q a) :
    runAlone l st = st := by
  induction l with
  | nil => rfl
  | cons e l ih =>
    obtain ⟨q, a, rfl⟩ := h e (by simp)
    exact ih fun e he => h e (List.mem_cons_of_mem _ he)

theorem right_both (l1 l2 : List (Ev K V)) (st : List (Store K V)) :
    Right (l1 ++ l2) st ↔ Right l1 st ∧ Right l2 (runAlone l1 st) := by
  induction l1 generalizing st with
  | nil => simp [Right, runAlone]
  | cons e l1 ih => simp only [List.cons_append, Right, runAlone, ih, and_assoc]

/-- A transaction that asks the same question twice, and has only read in between, gets the same answer twice, whatever
others have committed in between: no row changes, goes away or appears. -/
theorem C67_reads_repeat_partial (init : Store K V) (w : World K V) (h : Reach ⟨false, false, false⟩ init w) (t : Nat)
    (x : Txn K V) (hx : w.txns t = some x) (l1 l2 l3 : List (Ev K V)) (q : Query K) (a b : Option (K × V))
    (hl : x.log = l1 ++ (Ev.ask q a :: l2) ++ (Ev.ask q b :: l3)) (hr : ∀ e ∈ l2, ∃ q a, e = Ev.ask q a) : a = b := by
  have hi := ((inv_reach h).each t x hx).right
  rw [hl, right_both, right_both] at hi
  obtain ⟨⟨_, ha⟩, hb⟩ := hi
  rw [runAlone_append] at hb
  have hrun : runAlone (Ev.ask q a :: l2) (runAlone l1 [afterAll init w.done]) =
      runAlone l1 [afterAll init w.done] := run_asks l2 _ hr
  rw [hrun] at hb
  exact answer_unique _ q a b ha.1 hb.1

/-! Concrete runs -/

def firstQ : Query Nat := ⟨.up, .inf, none, false⟩
def nextQ (k : Nat) : Query Nat := ⟨.up, .excl k, none, false⟩

/-- Two transactions beside each other: the first reads the only row, at 3, and what comes after it; the second waits for
its lock and writes 5 only after the first has committed. -/
example : ∃ w : World Nat Nat, Reach ⟨false, false, false⟩ (fun k => if k = 3 then some 30 else none) w ∧
    (∀ t, w.txns t = none) ∧ w.rows 5 = some 50 ∧
    w.done = [[.ask firstQ (some (3, 30)), .ask (nextQ 3) none], [.wrote 5 (some 50), .ask (nextQ 3) (some (5, 50))]] := by
  have r0 := Reach.start (f := ⟨false, false, false⟩) (rows := fun k : Nat => if k = 3 then some 30 else none)
  have r1 := Reach.step _ _ r0 (.new _ 1 rfl)
  have r2 := Reach.step _ _ r1 (.new _ 2 rfl)
  have r3 := Reach.step _ _ r2 (.call _ 1 _ firstQ rfl rfl rfl)
  have r4 := Reach.step _ _ r3 (.found _ 1 _ firstQ .inf .inf 3 30 rfl rfl trivial
    (by intro k _ hk; simp only [World.set, World.start]; rw [if_neg]; simp [Dir.lt, firstQ] at hk; omega) rfl trivial
    (by
      intro u y hu hy k hk
      simp only [World.set, World.start] at hy
      simp only [hu, if_false] at hy
      split at hy
      · cases hy; exact hk.elim
      · cases hy))
  have r5 := Reach.step _ _ r4 (.call _ 1 _ (nextQ 3) rfl rfl rfl)
  have r6 := Reach.step _ _ r5 (.off _ 1 _ (nextQ 3) (.excl 3) (.excl 3) rfl rfl
    (by intro k hk; simp only [World.set, World.start]; rw [if_neg]; simp [Start.ahead, Dir.lt, nextQ] at hk; omega))
  have r7 := Reach.step _ _ r6 (.lockEnd _ 1 _ (nextQ 3) (.excl 3) rfl rfl
    (by
      intro u y hu hy k hk
      simp only [World.set, World.start] at hy
      simp only [hu, if_false] at hy
      split at hy
      · cases hy; exact hk.elim
      · cases hy))
  have r8 := Reach.step _ _ r7 (.commit _ 1 _ _ rfl rfl rfl rfl)
  have r9 := Reach.step _ _ r8 (.lock _ 2 _ (fun k => k = 5) rfl rfl
    (by
      intro u y hu hy k hk
      simp only [World.set, World.start] at hy
      simp only [hu, if_false] at hy
      split at hy
      · cases hy
      · cases hy))
  have r10 := Reach.step _ _ r9 (.write _ 2 _ [] [] 5 (some 50) rfl rfl rfl rfl (.inr rfl)
    (.inr (by
      intro u y s hu hy hs
      simp only [World.set, World.start] at hy
      simp only [hu, if_false] at hy
      split at hy
      · cases hy
      · cases hy)))
  have r11 := Reach.step _ _ r10 (.call _ 2 _ (nextQ 3) rfl rfl rfl)
  have r12 := Reach.step _ _ r11 (.found _ 2 _ (nextQ 3) (.excl 3) (.excl 3) 5 50 rfl rfl
    (by simp [Start.ahead, Dir.lt, nextQ])
    (by
      intro k hk hk2
      simp only [World.set, World.start, upd]
      simp only [Start.ahead, Dir.lt, nextQ] at hk hk2
      rw [if_neg (by omega), if_neg (by omega)]) rfl trivial
    (by
      intro u y hu hy k hk
      simp only [World.set, World.start] at hy
      simp only [hu, if_false] at hy
      split at hy
      · cases hy
      · cases hy))
  have r13 := Reach.step _ _ r12 (.commit _ 2 _ _ rfl rfl rfl rfl)
  refine ⟨_, r13, ?_, rfl, rfl⟩
  intro t
  simp only [World.set, World.start]
  split
  · rfl
  · split <;> rfl

/-! Where it does not hold -/

theorem serial_mem (P : Store K V → Prop) (ls : List (List (Ev K V))) (s : Store K V) (h : Serial s ls) (hs : P s)
    (hp : ∀ l ∈ ls, ∀ s, P s → P (after s l)) (l : List (Ev K V)) (hl : l ∈ ls) : ∃ s', P s' ∧ Right l [s'] := by
  induction ls generalizing s with
  | nil => cases hl
  | cons l0 ls ih =>
    rcases List.mem_cons.mp hl with rfl | hl
    · exact ⟨s, hs, h.1⟩
    · exact ih (after s l0) h.2 (hp l0 (by simp) s hs) (fun l hl => hp l (List.mem_cons_of_mem _ hl)) hl

/-- The same question, nothing done in between, and two answers. -/
theorem not_serializable (s : Store K V) (ls : List (List (Ev K V))) (q : Query K) (a b : Option (K × V))
    (hab : a ≠ b) (hm : [Ev.ask q a, Ev.ask q b] ∈ ls) : ¬ Serializable s ls := by
  rintro ⟨l, hp, hs⟩
  obtain ⟨s', _, hr⟩ := serial_mem (fun _ => True) l s hs trivial (fun _ _ _ _ => trivial) _ (hp.mem_iff.mpr hm)
  exact hab (answer_unique s' q a b hr.1 hr.2.1)

/-- The search for the first row runs off the end of an empty dictionary and lets go of the nodes before it locks
(ft/ft-ops.cc:3920-3941).  Between the two another transaction writes a row and commits.  The answer is that there is no
row; asked again, the same transaction gets the row. -/
theorem C67_row_appears_before_the_lock : ∃ w : World Nat Nat, Reach ⟨true, false, false⟩ (fun _ => none) w ∧
    w.done = [[.wrote 5 (some 50)], [.ask firstQ none, .ask firstQ (some (5, 50))]] ∧
    ¬ Serializable (fun _ => none) w.done := by
  have r0 := Reach.start (f := ⟨true, false, false⟩) (rows := fun _ : Nat => (none : Option Nat))
  have r1 := Reach.step _ _ r0 (.new _ 1 rfl)
  have r2 := Reach.step _ _ r1 (.new _ 2 rfl)
  have r3 := Reach.step _ _ r2 (.call _ 1 _ firstQ rfl rfl rfl)
  have r4 := Reach.step _ _ r3 (.off _ 1 _ firstQ .inf .inf rfl rfl (fun _ _ => rfl))
  have r5 := Reach.step _ _ r4 (.lock _ 2 _ (fun k => k = 5) rfl rfl
    (by
      intro u y hu hy k hk
      simp only [World.set, World.start] at hy
      split at hy
      · cases hy; exact hk.elim
      · cases hy))
  have r6 := Reach.step _ _ r5 (.write _ 2 _ [] [] 5 (some 50) rfl rfl rfl rfl (.inr rfl) (.inl rfl))
  have r7 := Reach.step _ _ r6 (.commit _ 2 _ _ rfl rfl rfl rfl)
  have r8 := Reach.step _ _ r7 (.lockEnd _ 1 _ firstQ .inf rfl rfl
    (by
      intro u y hu hy k hk
      simp only [World.set, World.start] at hy
      simp only [hu, if_false] at hy
      split at hy <;> cases hy))
  have r9 := Reach.step _ _ r8 (.call _ 1 _ firstQ rfl rfl rfl)
  have r10 := Reach.step _ _ r9 (.found _ 1 _ firstQ .inf .inf 5 50 rfl rfl trivial
    (by
      intro k hk hk2
      simp only [World.set, World.start, upd]
      simp only [Dir.lt, firstQ] at hk2
      rw [if_neg (by omega)]) rfl trivial
    (by
      intro u y hu hy k hk
      simp only [World.set, World.start] at hy
      simp only [hu, if_false] at hy
      split at hy <;> cases hy))
  have r11 := Reach.step _ _ r10 (.commit _ 1 _ _ rfl rfl rfl rfl)
  exact ⟨_, r11, rfl, not_serializable _ _ firstQ none (some (5, 50)) (by simp) (by simp [World.set])⟩

/-- A cursor up to 7 whose bounds were set without locking them.  The first row is at 9; it is out of range, the answer is
that there is none, and nothing is locked.  Another transaction writes 5 and commits; asked again, the cursor finds it. -/
theorem C67_bounds_not_locked : ∃ w : World Nat Nat,
    Reach ⟨false, true, false⟩ (fun k => if k = 9 then some 90 else none) w ∧
    w.done = [[.wrote 5 (some 50)], [.ask ⟨.up, .inf, some 7, false⟩ none, .ask ⟨.up, .inf, some 7, false⟩ (some (5, 50))]] ∧
    ¬ Serializable (fun k => if k = 9 then some 90 else none) w.done := by
  have r0 := Reach.start (f := ⟨false, true, false⟩) (rows := fun k : Nat => if k = 9 then some 90 else none)
  have r1 := Reach.step _ _ r0 (.new _ 1 rfl)
  have r2 := Reach.step _ _ r1 (.new _ 2 rfl)
  have r3 := Reach.step _ _ r2 (.call _ 1 _ ⟨.up, .inf, some 7, false⟩ rfl rfl rfl)
  have r4 := Reach.step _ _ r3 (.out _ 1 _ ⟨.up, .inf, some 7, false⟩ .inf .inf 9 rfl rfl rfl trivial
    (by
      intro k hk hk2
      simp only [World.set, World.start]
      simp only [Dir.lt] at hk2
      rw [if_neg (by omega)]) (by simp [within, Dir.lt]) (.inl rfl))
  have r5 := Reach.step _ _ r4 (.lock _ 2 _ (fun k => k = 5) rfl rfl
    (by
      intro u y hu hy k hk
      simp only [World.set, World.start] at hy
      split at hy
      · cases hy; exact hk.elim
      · cases hy))
  have r6 := Reach.step _ _ r5 (.write _ 2 _ [] [] 5 (some 50) rfl rfl rfl rfl (.inr rfl)
    (.inr (by
      intro u y s hu hy hs
      simp only [World.set, World.start] at hy
      simp only [hu, if_false] at hy
      split at hy
      · cases hy; cases hs
      · cases hy)))
  have r7 := Reach.step _ _ r6 (.commit _ 2 _ _ rfl rfl rfl rfl)
  have r8 := Reach.step _ _ r7 (.call _ 1 _ ⟨.up, .inf, some 7, false⟩ rfl rfl rfl)
  have r9 := Reach.step _ _ r8 (.found _ 1 _ ⟨.up, .inf, some 7, false⟩ .inf .inf 5 50 rfl rfl trivial
    (by
      intro k hk hk2
      simp only [World.set, World.start, upd]
      simp only [Dir.lt] at hk2
      rw [if_neg (by omega), if_neg (by omega)]) rfl (by simp [within, Dir.lt])
    (by
      intro u y hu hy k hk
      simp only [World.set, World.start] at hy
      simp only [hu, if_false] at hy
      split at hy <;> cases hy))
  have r10 := Reach.step _ _ r9 (.commit _ 1 _ _ rfl rfl rfl rfl)
  exact ⟨_, r10, rfl, not_serializable _ _ ⟨.up, .inf, some 7, false⟩ none (some (5, 50)) (by simp) (by simp [World.set])⟩

theorem skipped_not_serializable : ¬ Serializable (fun k : Nat => if 1 ≤ k ∧ k ≤ 3 then some k else none)
    [[], [Ev.ask firstQ (some (1, 1)), Ev.ask (nextQ 1) (some (3, 3))]] := by
  rintro ⟨l, hp, hs⟩
  have hmem : ∀ x ∈ l, x = [] ∨ x = [Ev.ask firstQ (some (1, 1)), Ev.ask (nextQ 1) (some (3, 3))] := by
    intro x hx
    have := hp.mem_iff.mp hx
    simpa using this
  obtain ⟨s', rfl, hr⟩ := serial_mem (fun s => s = fun k => if 1 ≤ k ∧ k ≤ 3 then some k else none) l _ hs rfl
    (by
      rintro x hx s rfl
      rcases hmem x hx with rfl | rfl <;> rfl)
    [Ev.ask firstQ (some (1, 1)), Ev.ask (nextQ 1) (some (3, 3))] (hp.mem_iff.mpr (by simp))
  have := hr.2.1.2.2.2 2 (by simp [Start.ahead, Dir.lt, nextQ]) (by simp [Dir.lt, nextQ])
  simp [now, alone] at this

/-- Rows 1, 2 and 3, and the lock on 2 with another transaction that only holds it.  In a bulk fetch the lock on the second
row has to be waited for; the cursor is already at 2 by then, and when the lock is granted it goes on from there: after
row 1 it delivers row 3. -/
theorem C67_bulk_fetch_skips_a_row : ∃ w : World Nat Nat,
    Reach ⟨false, false, true⟩ (fun k => if 1 ≤ k ∧ k ≤ 3 then some k else none) w ∧
    w.done = [[], [.ask firstQ (some (1, 1)), .ask (nextQ 1) (some (3, 3))]] ∧
    ¬ Serializable (fun k => if 1 ≤ k ∧ k ≤ 3 then some k else none) w.done := by
  have r0 := Reach.start (f := ⟨false, false, true⟩) (rows := fun k : Nat => if 1 ≤ k ∧ k ≤ 3 then some k else none)
  have r1 := Reach.step _ _ r0 (.new _ 1 rfl)
  have r2 := Reach.step _ _ r1 (.new _ 2 rfl)
  have r3 := Reach.step _ _ r2 (.lock _ 2 _ (fun k => k = 2) rfl rfl
    (by
      intro u y hu hy k hk
      simp only [World.set, World.start] at hy
      simp only [hu, if_false] at hy
      split at hy
      · cases hy; exact hk.elim
      · cases hy))
  have r4 := Reach.step _ _ r3 (.call _ 1 _ firstQ rfl rfl rfl)
  have r5 := Reach.step _ _ r4 (.found _ 1 _ firstQ .inf .inf 1 1 rfl rfl trivial
    (by
      intro k hk hk2
      simp only [World.set, World.start]
      simp only [Dir.lt, firstQ] at hk2
      rw [if_neg (by omega)]) rfl trivial
    (by
      intro u y hu hy k hk hk2
      simp only [World.set, World.start] at hy
      simp only [hu, if_false] at hy
      split at hy
      · cases hy
        rcases hk with hk | hk
        · exact hk
        · simp only [lockTo, Dir.lt, firstQ] at hk2
          omega
      · cases hy))
  have r6 := Reach.step _ _ r5 (.call _ 1 _ (nextQ 1) rfl rfl rfl)
  have r7 := Reach.step _ _ r6 (.bulkWait _ 1 _ (nextQ 1) (.excl 1) (.excl 1) 2 1 1 firstQ [] rfl rfl rfl rfl rfl
    (by simp [Start.ahead, Dir.lt, nextQ])
    (by
      intro k hk hk2
      simp only [Start.ahead, Dir.lt, nextQ] at hk hk2
      omega)
    (by simp [World.set, World.start]) trivial
    (by
      intro hf
      exact hf 2 _ (by omega) rfl 2 (.inr rfl) (by simp [lockTo, Dir.lt, nextQ])))
  have r8 := Reach.step _ _ r7 (.commit _ 2 _ _ rfl rfl rfl rfl)
  have r9 := Reach.step _ _ r8 (.granted _ 1 _ (nextQ 1) (.excl 2) (fun k => k = 2) rfl rfl
    (by
      intro u y hu hy k hk
      simp only [World.set, World.start] at hy
      simp only [hu, if_false] at hy
      split at hy <;> cases hy))
  have r10 := Reach.step _ _ r9 (.found _ 1 _ (nextQ 1) (.excl 2) (.excl 2) 3 3 rfl rfl
    (by simp [Start.ahead, Dir.lt, nextQ])
    (by
      intro k hk hk2
      simp only [Start.ahead, Dir.lt, nextQ] at hk hk2
      omega) rfl trivial
    (by
      intro u y hu hy k hk
      simp only [World.set, World.start] at hy
      simp only [hu, if_false] at hy
      split at hy <;> cases hy))
  have r11 := Reach.step _ _ r10 (.commit _ 1 _ _ rfl rfl rfl rfl)
  exact ⟨_, r11, rfl, skipped_not_serializable⟩

end Verif.Iso
