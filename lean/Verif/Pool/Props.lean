import Verif.Pool.Model

/-!
# Properties of the pool of threads (C99)
-/

namespace Verif.Pool

def isGot (t : Nat) (r : Req) : Bool := decide (r.st = .got t)
def isRan (k : Nat) (r : Req) : Bool := decide (r.id = k ∧ r.st = .ran)
def isAsleep (r : Req) : Bool := decide (r.st = .asleep)
def isReq (k : Nat) (r : Req) : Bool := decide (r.id = k)
def isTh (t : Nat) (x : Th) : Bool := decide (x.id = t)
def atWork (t : Nat) (x : Th) : Bool := decide (x.id = t) && x.f.isSome
def hasJob (k : Nat) (x : Th) : Bool := decide (x.f = some k)
def isFresh (x : Th) : Bool := decide (x.st = .fresh)

theorem signal_same {l l' : List Req} (h : Signal l l') (P : Req → Bool) (hp : ∀ k, P ⟨k, .asleep⟩ = P ⟨k, .entry⟩) :
    l'.countP P = l.countP P := by
  cases h with
  | wakes a b k => simp only [List.countP_append, List.countP_cons, hp]
  | nobody _ => rfl

theorem signal_nap {l l' : List Req} (h : Signal l l') : l'.countP isAsleep = l.countP isAsleep - 1 := by
  cases h with
  | wakes a b k => simp [List.countP_append, isAsleep]
  | nobody _ h =>
    have : l.countP isAsleep = 0 := List.countP_eq_zero.2 fun r hr => by simpa [isAsleep] using h r hr
    omega

theorem signal_exists (l : List Req) : ∃ l', Signal l l' := by
  by_cases h : ∃ r ∈ l, r.st = .asleep
  · obtain ⟨⟨k, x⟩, hr, e⟩ := h
    obtain ⟨a, b, e'⟩ := List.append_of_mem hr
    cases e
    rw [e']
    exact ⟨_, .wakes a b k⟩
  · exact ⟨l, .nobody l fun r hr e => h ⟨r, hr, e⟩⟩

theorem signal_len {l l' : List Req} (h : Signal l l') : l'.length = l.length := by
  cases h with
  | wakes a b k => simp
  | nobody _ => rfl

structure Inv (max : Nat) (s : St) : Prop where
  tids : ∀ t, s.ths.countP (isTh t) = if t < s.ths.length then 1 else 0
  rids : ∀ k, s.reqs.countP (isReq k) = if k < s.reqs.length then 1 else 0
  own : ∀ t, s.free.count t + s.reqs.countP (isGot t) + s.ths.countP (atWork t) = s.ths.countP (isTh t)
  job : ∀ k, s.done.count k + s.ths.countP (hasJob k) = s.reqs.countP (isRan k)
  nap : s.reqs.countP isAsleep ≤ s.ths.countP isFresh
  busy : ∀ x ∈ s.ths, x.st = .busy → x.f ≠ none
  bound : s.max = max ∧ (max = 0 ∨ s.ths.length ≤ max)

theorem inv_init (max : Nat) : Inv max (.init max) := by
  refine ⟨?_, ?_, ?_, ?_, ?_, ?_, rfl, ?_⟩ <;> simp [St.init]

theorem inv_env (max : Nat) (s s' : St) (h : Inv max s) (st : Env s s') : Inv max s' := by
  obtain ⟨h1, h2, h3, h4, h5, h6, h7⟩ := h
  cases st with
  | call =>
    refine ⟨h1, fun k => ?_, fun t => ?_, fun k => ?_, ?_, h6, h7⟩
    · have := h2 k
      simp only [List.countP_append, List.countP_cons, List.countP_nil, isReq, List.length_append, List.length_singleton] at this ⊢
      simp only [decide_eq_true_eq] at this ⊢
      (repeat' split at this) <;> (repeat' split) <;> omega
    · simpa [isGot] using h3 t
    · simpa [isRan] using h4 k
    · simpa [isAsleep] using h5
  | spurious a b k0 he =>
    refine ⟨h1, fun k => ?_, fun t => ?_, fun k => ?_, ?_, h6, h7⟩
    · simpa [he, isReq, List.countP_cons] using h2 k
    · simpa [he, isGot, List.countP_cons] using h3 t
    · simpa [he, isRan, List.countP_cons] using h4 k
    · simp [he, isAsleep, List.countP_cons] at h5 ⊢; omega

theorem inv_step (max : Nat) (s s' : St) (h : Inv max s) (st : Step s s') : Inv max s' := by
  obtain ⟨h1, h2, h3, h4, h5, h6, h7⟩ := h
  cases st with
  | take a b k0 t0 rest he hf =>
    refine ⟨h1, fun k => ?_, fun t => ?_, fun k => ?_, ?_, h6, h7⟩
    · simpa [he, isReq, List.countP_cons] using h2 k
    · have := h3 t
      simp [he, hf, isGot, List.countP_cons, List.count_cons] at this ⊢
      omega
    · simpa [he, isRan, List.countP_cons] using h4 k
    · simpa [he, isAsleep, List.countP_cons] using h5
  | make a b k0 a' b' he hf hm hs =>
    rw [← he] at hs
    have g1 := fun k => signal_same hs (isReq k) (fun _ => rfl)
    have g2 := fun t => signal_same hs (isGot t) (fun _ => by simp [isGot])
    have g3 := fun k => signal_same hs (isRan k) (fun _ => by simp [isRan])
    have g4 := signal_nap hs
    have g5 := signal_len hs
    refine ⟨fun t => ?_, fun k => ?_, fun t => ?_, fun k => ?_, ?_, fun x hx hb => ?_, h7.1, ?_⟩
    · have := h1 t
      simp only [List.countP_append, List.countP_cons, List.countP_nil, isTh, List.length_append, List.length_singleton] at this ⊢
      simp only [decide_eq_true_eq] at this ⊢
      (repeat' split at this) <;> (repeat' split) <;> omega
    · have h2 := h2 k
      have g1 := g1 k
      rw [← g1, ← g5] at h2
      simpa [isReq, List.countP_cons] using h2
    · have h3 := h3 t
      rw [hf, ← g2 t] at h3
      simp [isGot, List.countP_cons, isTh, atWork, List.count_cons] at h3 ⊢
      omega
    · have h4 := h4 k
      rw [← g3 k] at h4
      simpa [isRan, List.countP_cons, hasJob] using h4
    · simp [isAsleep, List.countP_cons, isFresh] at h5 g4 ⊢
      omega
    · simp only [List.mem_append, List.mem_singleton] at hx
      rcases hx with hx | rfl
      · exact h6 x hx hb
      · cases hb
    · rcases hm with hm | hm
      · exact .inl (by rw [← h7.1]; exact hm)
      · right
        simp only [List.length_append, List.length_singleton]
        have := h7.1
        omega
  | refuse a b k0 he hf =>
    refine ⟨h1, fun k => ?_, fun t => ?_, fun k => ?_, ?_, h6, h7⟩
    · simpa [he, isReq, List.countP_cons] using h2 k
    · simpa [he, isGot, List.countP_cons] using h3 t
    · simpa [he, isRan, List.countP_cons] using h4 k
    · simpa [he, isAsleep, List.countP_cons] using h5
  | run a b k0 t0 c d x f he ht =>
    have hn : f = none := by
      cases f with
      | none => rfl
      | some j =>
        exfalso
        have := h3 t0
        have h1 := h1 t0
        simp [he, ht, isGot, isTh, atWork, List.countP_cons] at this h1
        split at h1 <;> omega
    subst hn
    refine ⟨fun t => ?_, fun k => ?_, fun t => ?_, fun k => ?_, ?_, fun y hy hb => ?_, ?_⟩
    · simpa [ht, isTh, List.countP_cons] using h1 t
    · simpa [he, isReq, List.countP_cons] using h2 k
    · have := h3 t
      simp [he, ht, isGot, isTh, atWork, List.countP_cons] at this ⊢
      omega
    · have := h4 k
      simp [he, ht, isRan, hasJob, List.countP_cons] at this ⊢
      omega
    · simpa [he, ht, isAsleep, isFresh, List.countP_cons] using h5
    · simp only [List.mem_append, List.mem_cons] at hy
      rcases hy with hy | rfl | hy
      · exact h6 y (by simp [ht, hy]) hb
      · simp
      · exact h6 y (by simp [ht, hy]) hb
    · simpa [ht] using h7
  | first c d t0 f reqs' ht hs =>
    have g1 := fun k => signal_same hs (isReq k) (fun _ => rfl)
    have g2 := fun t => signal_same hs (isGot t) (fun _ => by simp [isGot])
    have g3 := fun k => signal_same hs (isRan k) (fun _ => by simp [isRan])
    have g4 := signal_nap hs
    have g5 := signal_len hs
    refine ⟨fun t => ?_, fun k => ?_, fun t => ?_, fun k => ?_, ?_, fun y hy hb => ?_, ?_⟩
    · simpa [ht, isTh, List.countP_cons] using h1 t
    · show reqs'.countP _ = if k < reqs'.length then 1 else 0
      rw [g1, g5]; exact h2 k
    · have := h3 t
      rw [← g2 t] at this
      simpa [ht, isTh, atWork, List.countP_cons] using this
    · have := h4 k
      rw [← g3 k] at this
      simpa [ht, hasJob, List.countP_cons] using this
    · simp [ht, isFresh, List.countP_cons] at h5 ⊢
      omega
    · simp only [List.mem_append, List.mem_cons] at hy
      rcases hy with hy | rfl | hy
      · exact h6 y (by simp [ht, hy]) hb
      · cases hb
      · exact h6 y (by simp [ht, hy]) hb
    · simpa [ht] using h7
  | sees c d t0 k0 ht =>
    refine ⟨fun t => ?_, h2, fun t => ?_, fun k => ?_, ?_, fun y hy hb => ?_, ?_⟩
    · simpa [ht, isTh, List.countP_cons] using h1 t
    · simpa [ht, isTh, atWork, List.countP_cons] using h3 t
    · simpa [ht, hasJob, List.countP_cons] using h4 k
    · simpa [ht, isFresh, List.countP_cons] using h5
    · simp only [List.mem_append, List.mem_cons] at hy
      rcases hy with hy | rfl | hy
      · exact h6 y (by simp [ht, hy]) hb
      · simp
      · exact h6 y (by simp [ht, hy]) hb
    · simpa [ht] using h7
  | fin c d t0 k0 reqs' ht hs =>
    have g1 := fun k => signal_same hs (isReq k) (fun _ => rfl)
    have g2 := fun t => signal_same hs (isGot t) (fun _ => by simp [isGot])
    have g3 := fun k => signal_same hs (isRan k) (fun _ => by simp [isRan])
    have g4 := signal_nap hs
    have g5 := signal_len hs
    refine ⟨fun t => ?_, fun k => ?_, fun t => ?_, fun k => ?_, ?_, fun y hy hb => ?_, ?_⟩
    · simpa [ht, isTh, List.countP_cons] using h1 t
    · show reqs'.countP _ = if k < reqs'.length then 1 else 0
      rw [g1, g5]; exact h2 k
    · have := h3 t
      rw [← g2 t] at this
      simp [ht, isTh, atWork, List.countP_cons, List.count_cons] at this ⊢
      omega
    · have := h4 k
      rw [← g3 k] at this
      simp [ht, hasJob, List.countP_cons, List.count_cons] at this ⊢
      omega
    · simp [ht, isFresh, List.countP_cons] at h5 ⊢
      omega
    · simp only [List.mem_append, List.mem_cons] at hy
      rcases hy with hy | rfl | hy
      · exact h6 y (by simp [ht, hy]) hb
      · cases hb
      · exact h6 y (by simp [ht, hy]) hb
    · simpa [ht] using h7

theorem inv_reach {max : Nat} {s : St} (h : Reach max s) : Inv max s := by
  induction h with
  | init => exact inv_init max
  | step _ st ih => exact inv_step max _ _ ih st
  | env _ st ih => exact inv_env max _ _ ih st

/-- The first of two calls makes a thread and sleeps. -/
theorem example_asleep : Reach 1 ⟨1, [0], [⟨0, .fresh, none⟩], [⟨0, .asleep⟩, ⟨1, .entry⟩], []⟩ :=
  have r2 : Reach 1 ⟨1, [], [], [⟨0, .entry⟩, ⟨1, .entry⟩], []⟩ := .env (.env .init (.call _)) (.call _)
  .step r2 (.make _ [] [⟨1, .entry⟩] 0 [] [⟨1, .entry⟩] rfl rfl (.inr (by decide)) (.nobody _ (by simp)))

/-- The thread begins, the first call gets it, the second is refused. -/
theorem example_given : Reach 1 ⟨1, [], [⟨0, .ready, none⟩], [⟨0, .got 0⟩, ⟨1, .refused⟩], []⟩ :=
  have r4 : Reach 1 ⟨1, [0], [⟨0, .ready, none⟩], [⟨0, .entry⟩, ⟨1, .entry⟩], []⟩ :=
    .step example_asleep (.first _ [] [] 0 none _ rfl (.wakes [] _ 0))
  have r5 : Reach 1 ⟨1, [], [⟨0, .ready, none⟩], [⟨0, .got 0⟩, ⟨1, .entry⟩], []⟩ := .step r4 (.take _ [] _ 0 0 [] rfl rfl)
  .step r5 (.refuse _ [⟨0, .got 0⟩] [] 1 rfl rfl)

/-- A pool of one thread and two calls: the first got the thread, the second is refused (`example_given`); the first gives the thread its
work, the work is done and the thread is free again. -/
theorem example_run : Reach 1 ⟨1, [0], [⟨0, .ready, none⟩], [⟨0, .ran⟩, ⟨1, .refused⟩], [0]⟩ :=
  have r7 : Reach 1 ⟨1, [], [⟨0, .ready, some 0⟩], [⟨0, .ran⟩, ⟨1, .refused⟩], []⟩ := .step example_given (.run _ [] _ 0 0 [] [] _ _ rfl rfl)
  have r8 : Reach 1 ⟨1, [], [⟨0, .busy, some 0⟩], [⟨0, .ran⟩, ⟨1, .refused⟩], []⟩ := .step r7 (.sees _ [] [] 0 0 rfl)
  .step r8 (.fin _ [] [] 0 0 _ rfl (.nobody _ (by simp)))

/-- C99: at every moment every thread is in exactly one hand: in the list of free threads (once), with one call that has it, or at the work of one
call. -/
theorem C99_one_hand (max : Nat) (s : St) (h : Reach max s) (t : Nat) (ht : t < s.ths.length) :
    s.free.count t + s.reqs.countP (fun r => decide (r.st = .got t)) +
      s.ths.countP (fun x => decide (x.id = t) && x.f.isSome) = 1 := by
  have := (inv_reach h).own t
  rw [(inv_reach h).tids t, if_pos ht] at this
  exact this

/-- After the run of the example the thread is free, once. -/
example : (⟨1, [0], [⟨0, .ready, none⟩], [⟨0, .ran⟩, ⟨1, .refused⟩], [0]⟩ : St).free.count 0 = 1 := by
  have := C99_one_hand 1 _ example_run 0 (by decide)
  simpa using this

/-- C99: a call that was given a thread has it alone: the thread exists, has no work, is not in the list of free threads, and no other call has
it. -/
theorem C99_given (max : Nat) (s : St) (h : Reach max s) (k t : Nat) (hk : ⟨k, .got t⟩ ∈ s.reqs) :
    (∃ x ∈ s.ths, x.id = t) ∧ (∀ x ∈ s.ths, x.id = t → x.f = none) ∧ t ∉ s.free ∧ ∀ k', ⟨k', .got t⟩ ∈ s.reqs → k' = k := by
  have hi := inv_reach h
  have ho := hi.own t
  have h1 := hi.tids t
  have hg : 0 < s.reqs.countP (isGot t) := List.countP_pos_iff.2 ⟨_, hk, by simp [isGot]⟩
  have hle : s.ths.countP (isTh t) ≤ 1 := by rw [h1]; split <;> omega
  refine ⟨?_, fun x hx e => ?_, fun hf => ?_, fun k' hk' => ?_⟩
  · obtain ⟨x, hx, e⟩ := List.countP_pos_iff.1 (by omega : 0 < s.ths.countP (isTh t))
    exact ⟨x, hx, by simpa [isTh] using e⟩
  · have h0 : s.ths.countP (atWork t) = 0 := by omega
    have := List.countP_eq_zero.1 h0 x hx
    simpa [atWork, e] using this
  · have := List.count_pos_iff.2 hf
    omega
  · obtain ⟨a, b, e⟩ := List.append_of_mem hk
    have h2 : a.countP (isGot t) + b.countP (isGot t) = 0 := by
      have hc : s.reqs.countP (isGot t) = a.countP (isGot t) + (b.countP (isGot t) + 1) := by
        rw [e, List.countP_append, List.countP_cons, if_pos (by simp [isGot])]
      omega
    rw [e] at hk'
    simp only [List.mem_append, List.mem_cons] at hk'
    rcases hk' with hm | hm | hm
    · have : 0 < a.countP (isGot t) := List.countP_pos_iff.2 ⟨_, hm, by simp [isGot]⟩
      omega
    · cases hm; rfl
    · have : 0 < b.countP (isGot t) := List.countP_pos_iff.2 ⟨_, hm, by simp [isGot]⟩
      omega

/-- The call of the example with the thread: `example_given`. -/
example := C99_given 1 _ example_given 0 0 (by simp)

/-- C99: the work of a call that got a thread is done exactly once: it is done, or one thread has it; that of any other call is not done. -/
theorem C99_work (max : Nat) (s : St) (h : Reach max s) (k : Nat) :
    s.done.count k + s.ths.countP (fun x => decide (x.f = some k)) = if ⟨k, .ran⟩ ∈ s.reqs then 1 else 0 := by
  have hj := (inv_reach h).job k
  have hr := (inv_reach h).rids k
  have hle : s.reqs.countP (isRan k) ≤ s.reqs.countP (isReq k) :=
    List.countP_mono_left fun r _ hx => by simp [isRan] at hx; simp [isReq, hx.1]
  have hone : s.reqs.countP (isReq k) ≤ 1 := by rw [hr]; split <;> omega
  rw [show s.done.count k + s.ths.countP (fun x => decide (x.f = some k)) = s.reqs.countP (isRan k) from hj]
  split
  · rename_i hm
    have : 0 < s.reqs.countP (isRan k) := List.countP_pos_iff.2 ⟨_, hm, by simp [isRan]⟩
    omega
  · rename_i hm
    refine List.countP_eq_zero.2 fun r hr hx => hm ?_
    obtain ⟨i, x⟩ := r
    simp [isRan] at hx
    obtain ⟨rfl, rfl⟩ := hx
    exact hr

/-- The work of the first call of the example is done once, that of the second, which was refused, is not. -/
example := And.intro (C99_work 1 _ example_run 0) (C99_work 1 _ example_run 1)

/-- C99: no more threads than allowed (0: no limit). -/
theorem C99_bound (max : Nat) (s : St) (h : Reach max s) (hm : max ≠ 0) : s.ths.length ≤ max := by
  rcases (inv_reach h).bound.2 with h | h
  · exact absurd h hm
  · exact h

example := C99_bound 1 _ example_run (by decide)

/-- C99: a call that does not want to wait sleeps only while a thread that was made has not begun to run. -/
theorem C99_sleep (max : Nat) (s : St) (h : Reach max s) (k : Nat) (hk : ⟨k, .asleep⟩ ∈ s.reqs) : ∃ x ∈ s.ths, x.st = .fresh := by
  have hn := (inv_reach h).nap
  have : 0 < s.reqs.countP isAsleep := List.countP_pos_iff.2 ⟨_, hk, rfl⟩
  obtain ⟨x, hx, e⟩ := List.countP_pos_iff.1 (by omega : 0 < s.ths.countP isFresh)
  exact ⟨x, hx, by simpa [isFresh] using e⟩

/-- The first call of the example sleeps although a thread is free, the one it made. -/
example := C99_sleep 1 _ example_asleep 0 (by simp)

/-- C99: nobody is stuck: while a call has neither been served nor refused, or work is left, the pool can go on by itself. -/
theorem C99_goes_on (max : Nat) (s : St) (h : Reach max s)
    (hp : (∃ r ∈ s.reqs, r.st ≠ .ran ∧ r.st ≠ .refused) ∨ ∃ x ∈ s.ths, x.f ≠ none) : ∃ s', Step s s' := by
  have hi := inv_reach h
  obtain ⟨l', hs⟩ := signal_exists s.reqs
  rcases hp with ⟨⟨k, x⟩, hr, h1, h2⟩ | ⟨⟨t, x, f⟩, hx, hf⟩
  · obtain ⟨a, b, e⟩ := List.append_of_mem hr
    cases x with
    | entry =>
      cases hf : s.free with
      | nil => exact ⟨_, .refuse s a b k e hf⟩
      | cons t rest => exact ⟨_, .take s a b k t rest e hf⟩
    | asleep =>
      obtain ⟨⟨t, y, f⟩, hy, hfr⟩ := C99_sleep max s h k hr
      obtain ⟨c, d, e'⟩ := List.append_of_mem hy
      cases hfr
      exact ⟨_, .first s c d t f l' e' hs⟩
    | got t =>
      have ho := hi.own t
      have : 0 < s.reqs.countP (isGot t) := List.countP_pos_iff.2 ⟨_, hr, by simp [isGot]⟩
      obtain ⟨⟨i, y, f⟩, hy, hid⟩ := List.countP_pos_iff.1 (by omega : 0 < s.ths.countP (isTh t))
      obtain ⟨c, d, e'⟩ := List.append_of_mem hy
      simp [isTh] at hid
      subst hid
      exact ⟨_, .run s a b k i c d y f e e'⟩
    | ran => exact absurd rfl h1
    | refused => exact absurd rfl h2
  · obtain ⟨c, d, e⟩ := List.append_of_mem hx
    cases f with
    | none => exact absurd rfl hf
    | some k =>
      cases x with
      | fresh => exact ⟨_, .first s c d t _ l' e hs⟩
      | ready => exact ⟨_, .sees s c d t k e⟩
      | busy => exact ⟨_, .fin s c d t k l' e hs⟩

example := C99_goes_on 1 _ example_asleep (.inl ⟨⟨0, .asleep⟩, by simp, by simp, by simp⟩)

/-- What is left to do for a call and for a thread. -/
def callLeft (r : Req) : Nat := match r.st with
  | .entry => 21
  | .asleep => 20
  | .got _ => 10
  | .ran => 0
  | .refused => 0

def threadLeft (x : Th) : Nat := (if x.st = .fresh then 3 else 0) + (if x.f = none then 0 else if x.st = .busy then 3 else 5)

def rem (s : St) : Nat := (s.reqs.map callLeft).sum + (s.ths.map threadLeft).sum + (if s.free = [] then 5 else 0)

theorem signal_rw {l l' : List Req} (h : Signal l l') : (l'.map callLeft).sum ≤ (l.map callLeft).sum + 1 := by
  cases h with
  | wakes a b k => simp [callLeft]; omega
  | nobody _ => omega

theorem rem_step (s s' : St) (st : Step s s') : rem s' < rem s := by
  cases st with
  | take a b k0 t0 rest he hf => simp [rem, he, hf, callLeft]; split <;> omega
  | make a b k0 a' b' he hf hm hs =>
    have := signal_rw hs
    simp [rem, he, hf, callLeft, threadLeft] at this ⊢; omega
  | refuse a b k0 he hf => simp [rem, he, hf, callLeft]
  | run a b k0 t0 c d x f he ht =>
    simp only [rem, he, ht, List.map_append, List.map_cons, List.sum_append, List.sum_cons, callLeft, threadLeft]
    simp only [reduceCtorEq, if_false]
    (repeat' split) <;> omega
  | first c d t0 f reqs' ht hs =>
    have := signal_rw hs
    simp only [rem, ht, List.map_append, List.map_cons, List.sum_append, List.sum_cons, threadLeft]
    simp only [reduceCtorEq, if_false, if_true]
    (repeat' split) <;> omega
  | sees c d t0 k0 ht => simp [rem, ht, threadLeft]
  | fin c d t0 k0 reqs' ht hs =>
    have := signal_rw hs
    simp only [rem, ht, List.map_append, List.map_cons, List.sum_append, List.sum_cons, threadLeft]
    simp
    (repeat' split) <;> omega

theorem sum_le {α : Type} (w : α → Nat) (n : Nat) (l : List α) (h : ∀ x, w x ≤ n) : (l.map w).sum ≤ n * l.length := by
  induction l with
  | nil => simp
  | cons x l ih =>
    have := h x
    simp only [List.map_cons, List.sum_cons, List.length_cons, Nat.mul_succ]
    omega

/-- `n` steps of calls and threads, one after the other, with no new call and no sleep that ends for no reason. -/
inductive Steps : Nat → St → St → Prop
  | refl (s : St) : Steps 0 s s
  | step {n : Nat} {s s' s'' : St} : Step s s' → Steps n s' s'' → Steps (n + 1) s s''

theorem rem_steps {n : Nat} {s s' : St} (h : Steps n s s') : n + rem s' ≤ rem s := by
  induction h with
  | refl => omega
  | step st _ ih => have := rem_step _ _ st; omega

/-- C99: with no new calls the pool comes to rest after at most 21 steps for each call and 8 for each thread, in whatever order; by `C99_goes_on` every
call has then been served or refused and all work is done. -/
theorem C99_ends (n : Nat) (s s' : St) (h : Steps n s s') : n ≤ 21 * s.reqs.length + 8 * s.ths.length + 5 := by
  have h1 := rem_steps h
  have h2 := sum_le callLeft 21 s.reqs fun r => by unfold callLeft; split <;> omega
  have h3 := sum_le threadLeft 8 s.ths fun x => by unfold threadLeft; (repeat' split) <;> omega
  have h4 : rem s ≤ (s.reqs.map callLeft).sum + (s.ths.map threadLeft).sum + 5 := by unfold rem; split <;> omega
  omega

/-- The step of the example that refuses the second call. -/
example : Steps 1 ⟨1, [], [⟨0, .ready, none⟩], [⟨0, .got 0⟩, ⟨1, .entry⟩], []⟩ ⟨1, [], [⟨0, .ready, none⟩], [⟨0, .got 0⟩, ⟨1, .refused⟩], []⟩ :=
  .step (.refuse _ [⟨0, .got 0⟩] [] 1 rfl rfl) (.refl _)

/-- C99: at rest all calls have been served or refused, and the work of those served has been done once. -/
theorem C99_rest (max : Nat) (s : St) (h : Reach max s) (hn : ∀ s', ¬ Step s s') :
    (∀ r ∈ s.reqs, r.st = .ran ∨ r.st = .refused) ∧ ∀ k, ⟨k, .ran⟩ ∈ s.reqs → s.done.count k = 1 := by
  have hf : ∀ x ∈ s.ths, x.f = none := fun x hx => by
    cases e : x.f with
    | none => rfl
    | some k =>
      obtain ⟨s', st⟩ := C99_goes_on max s h (.inr ⟨x, hx, by simp [e]⟩)
      exact absurd st (hn s')
  refine ⟨fun r hr => ?_, fun k hk => ?_⟩
  · by_cases h1 : r.st = .ran
    · exact .inl h1
    · by_cases h2 : r.st = .refused
      · exact .inr h2
      · obtain ⟨s', st⟩ := C99_goes_on max s h (.inl ⟨r, hr, h1, h2⟩)
        exact absurd st (hn s')
  · have := C99_work max s h k
    rw [if_pos hk] at this
    have h0 : s.ths.countP (fun x => decide (x.f = some k)) = 0 := List.countP_eq_zero.2 fun x hx => by simp [hf x hx]
    omega

/-- The example has come to rest. -/
example : ∀ s', ¬ Step ⟨1, [0], [⟨0, .ready, none⟩], [⟨0, .ran⟩, ⟨1, .refused⟩], [0]⟩ s' := by
  intro s' st
  cases st with
  | take a b k t rest he hf => have : (⟨k, .entry⟩ : Req) ∈ [⟨0, R.ran⟩, ⟨1, .refused⟩] := by
                                 rw [show ([⟨0, .ran⟩, ⟨1, .refused⟩] : List Req) = _ from he]; simp
                               simp at this
  | make a b k a' b' he hf => cases hf
  | refuse a b k he hf => cases hf
  | run a b k t c d x f he ht => have : (⟨k, .got t⟩ : Req) ∈ [⟨0, R.ran⟩, ⟨1, .refused⟩] := by simp_all
                                 simp at this
  | first c d t f r ht => have : (⟨t, .fresh, f⟩ : Th) ∈ [⟨0, T.ready, none⟩] := by simp_all
                          simp at this
  | sees c d t k ht => have : (⟨t, .ready, some k⟩ : Th) ∈ [⟨0, T.ready, none⟩] := by simp_all
                       simp at this
  | fin c d t k r ht => have : (⟨t, .busy, some k⟩ : Th) ∈ [⟨0, T.ready, none⟩] := by simp_all
                        simp at this

end Verif.Pool
