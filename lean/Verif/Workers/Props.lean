import Verif.Workers.Ends

/-! # C80: background work is done once, in order, and waited for -/

namespace Verif.Workers

/-- Jobs are begun in the order they were handed over, each once: those begun, followed by those that wait, are
all the jobs handed over; and every job handed over is done, under way or waiting, exactly one of these and no
more often than it was handed over. -/
theorem C80_once (n : Nat) (evs : List Ev) (k : Pool) (h : run (create n) evs = some (some k)) :
    k.started ++ k.q = gives evs ∧ (k.done ++ running k.ws ++ k.q).Perm (gives evs) := by
  have hi := run_inv evs (create_inv n) h
  have hg := run_given evs h
  have e : gives evs = k.started ++ k.q := by
    rw [← hi.fifo, hg]; rfl
  exact ⟨e.symm, e ▸ List.Perm.append_right _ hi.once.symm⟩

/-- When destroying a pool that has a worker returns, all jobs ever handed over are done; no worker is left, and
nothing happens to the pool after that. -/
theorem C80_destroyed (n : Nat) (hn : 0 < n) (evs : List Ev) (k : Pool)
    (h : run (create n) evs = some (some k)) (hd : k.destroyed = true) :
    k.done.Perm (gives evs) ∧ (∀ w, w ∈ k.ws → w = .gone) ∧ ∀ e k', act k e ≠ some (some k') := by
  have hi := run_inv evs (create_inv n) h
  obtain ⟨hs, hg⟩ := hi.ended hd
  have hne : W.gone ∈ k.ws := by
    cases hw : k.ws with
    | nil => have := hi.len; rw [hw] at this; simp at this; omega
    | cons w r =>
      have := hg w (by rw [hw]; exact List.mem_cons_self ..)
      rw [this]; exact List.mem_cons_self ..
  have hq := (hi.gone hne).2
  have hr : running k.ws = [] := by
    unfold running
    rw [List.filterMap_eq_nil_iff]
    intro w hw
    rw [hg w hw]
  have p := (C80_once n evs k h).2
  rw [hq, hr, List.append_nil, List.append_nil] at p
  exact ⟨p, hg, fun e k' ha => dead hi hd ha⟩

/-- A wake-up is never lost: while a job waits, no worker sleeps unless another is about to take a job; and if no
worker is doing a job, one is about to take the next. -/
theorem C80_awake (n : Nat) (hn : 0 < n) (evs : List Ev) (k : Pool) (h : run (create n) evs = some (some k))
    (hq : k.q ≠ []) : (W.waiting ∈ k.ws → W.ready ∈ k.ws) ∧ (running k.ws = [] → W.ready ∈ k.ws) := by
  have hi := run_inv evs (create_inv n) h
  refine ⟨hi.awake hq, fun hr => ?_⟩
  cases hw : k.ws with
  | nil => have := hi.len; rw [hw] at this; simp at this; omega
  | cons w r =>
    have hm : w ∈ k.ws := by rw [hw]; exact List.mem_cons_self ..
    rw [← hw]
    cases w with
    | ready => exact hm
    | waiting => exact hi.awake hq hm
    | gone => exact absurd (hi.gone hm).2 hq
    | busy j =>
      have : j ∈ running k.ws := by
        unfold running
        exact List.mem_filterMap.mpr ⟨_, hm, rfl⟩
      rw [hr] at this; cases this

/-- If nothing more is handed over and the pool is not destroyed, the workers take at most `ahead k` steps, and
when they can take no more, all jobs handed over are done. -/
theorem C80_served (n : Nat) (hn : 0 < n) (evs : List Ev) (k : Pool) (h : run (create n) evs = some (some k))
    (hs : k.shut = false) (more : List Ev) (hp : ∀ e, e ∈ more → e.progress = true) (t : Pool)
    (hr : run k more = some (some t)) :
    more.length ≤ ahead k ∧
    ((∀ e t', e.progress = true → act t e ≠ some (some t')) → t.done.Perm (gives evs)) := by
  have hi := run_inv evs (create_inv n) h
  have hit := run_inv more hi hr
  obtain ⟨l, _⟩ := run_ahead more hs hp hr
  refine ⟨by omega, fun stuck => ?_⟩
  have noready : W.ready ∉ t.ws := by
    intro m
    obtain ⟨w, who, t', ha⟩ := ready_moves m
    exact stuck _ _ rfl ha
  have nobusy : running t.ws = [] := by
    unfold running
    rw [List.filterMap_eq_nil_iff]
    intro w hw
    cases w with
    | busy j =>
      obtain ⟨w, t', ha⟩ := busy_moves hw
      exact absurd ha (stuck _ _ rfl)
    | ready => rfl
    | waiting => rfl
    | gone => rfl
  have hall : run (create n) (evs ++ more) = some (some t) := by
    have : ∀ (es : List Ev) (a b : Pool), run a es = some (some b) → run a (es ++ more) = run b more := by
      intro es
      induction es with
      | nil => intro a b e; simp only [run] at e; cases e; rfl
      | cons x xs ih =>
        intro a b e
        obtain ⟨c, ha, hc⟩ := run_cons e
        simp only [List.cons_append, run, ha]
        exact ih c b hc
    rw [this evs _ _ h, hr]
  have hq : t.q = [] := by
    apply Classical.byContradiction
    intro c
    exact noready ((C80_awake n hn (evs ++ more) t hall c).2 nobusy)
  have hg : gives (evs ++ more) = gives evs := by
    have g1 := run_given (evs ++ more) hall
    have g2 := run_given evs h
    have g3 := run_given more hr
    have g4 : gives more = [] := by
      clear hr hall g1 g3 l
      induction more with
      | nil => rfl
      | cons e es ih =>
        have := hp e (List.mem_cons_self ..)
        have r := ih (fun x hx => hp x (List.mem_cons_of_mem _ hx))
        cases e with
        | enq j w => cases this
        | work w who => exact r
        | finish w => exact r
        | spurious w => exact r
        | destroy w => exact r
        | joined => exact r
    rw [g4, List.append_nil] at g3
    have e0 : (create n).given = [] := rfl
    rw [e0, List.nil_append] at g1 g2
    rw [← g1, ← g2, g3]
  have p := (C80_once n (evs ++ more) t hall).2
  rw [hq, nobusy, List.append_nil, List.append_nil, hg] at p
  exact p

/-- Destroying comes to an end: once it was called, at most `left k` steps of workers follow, chance wake-ups
included, and then the call returns; and as long as it has not returned, a worker can go on or the call can
return. -/
theorem C80_ends (n : Nat) (evs : List Ev) (k : Pool) (h : run (create n) evs = some (some k))
    (hs : k.shut = true) :
    (∀ more t, run k more = some (some t) → more.length ≤ left k + 1) ∧
    (k.destroyed = false → ∃ e k', (e.progress = true ∨ e = .joined) ∧ act k e = some (some k')) := by
  have hi := run_inv evs (create_inv n) h
  refine ⟨fun more t hr => (run_left more hi hs hr).1, fun hd => ?_⟩
  have awake : ∀ w, w ∈ k.ws → w ≠ .gone → W.ready ∈ k.ws ∨ ∃ j, W.busy j ∈ k.ws := by
    intro w hw hne
    cases w with
    | ready => exact Or.inl hw
    | waiting => exact hi.ending hs hw
    | busy j => exact Or.inr ⟨j, hw⟩
    | gone => exact absurd rfl hne
  by_cases c : ∃ w, w ∈ k.ws ∧ w ≠ .gone
  · obtain ⟨w, hw, hne⟩ := c
    rcases awake w hw hne with r | ⟨j, b⟩
    · obtain ⟨w, who, k', ha⟩ := ready_moves r
      exact ⟨_, k', Or.inl rfl, ha⟩
    · obtain ⟨w, k', ha⟩ := busy_moves b
      exact ⟨_, k', Or.inl rfl, ha⟩
  · refine ⟨.joined, { k with destroyed := true }, Or.inr rfl, ?_⟩
    simp only [act]
    rw [if_pos ⟨hs, List.all_eq_true.mpr (fun w hw => decide_eq_true
      (Classical.byContradiction fun e => c ⟨w, hw, e⟩)), hd⟩]

/-- Destroying takes effect: it can be called once, and then the pool is told to end. -/
theorem C80_destroy_takes_effect (k : Pool) (hs : k.shut = false) :
    ∃ who k', act k (.destroy who) = some (some k') ∧ k'.shut = true ∧ k'.q = k.q := by
  obtain ⟨who, ws, hw⟩ := signal_some k.ws
  refine ⟨who, { k with shut := true, ws := ws }, ?_, rfl, rfl⟩
  simp only [act, hs, hw]
  rfl

/-- Handing over takes effect as long as the pool is not told to end. -/
theorem C80_enq_takes_effect (k : Pool) (hs : k.shut = false) (job : Nat) :
    ∃ who k', act k (.enq job who) = some (some k') ∧ k'.q = k.q ++ [job] := by
  obtain ⟨who, ws, hw⟩ := signal_some k.ws
  let n := k.size + 1
  refine ⟨who, { k with
    q := k.q ++ [job]
    ws := ws
    size := n
    maxSize := if n > k.maxSize then n else k.maxSize
    given := k.given ++ [job] }, ?_, rfl⟩
  simp only [act, hs, hw]
  rfl

/-- What the pool reports: the jobs that wait, the jobs done, and the most jobs that ever waited. -/
theorem C80_status (n : Nat) (evs : List Ev) (k : Pool) (h : run (create n) evs = some (some k)) :
    k.size = k.q.length ∧ k.processed = k.done.length ∧
    (∀ p s m, evs = p ++ s → run (create n) p = some (some m) → m.q.length ≤ k.maxSize) ∧
    ∃ p s m, evs = p ++ s ∧ run (create n) p = some (some m) ∧ k.maxSize = m.q.length := by
  have hi := run_inv evs (create_inv n) h
  refine ⟨hi.size, hi.processed, ?_, ?_⟩
  · intro p s m e hp
    subst e
    obtain ⟨m', h1, h2⟩ := run_append p h
    rw [h1] at hp
    cases hp
    have him := run_inv p (create_inv n) h1
    have := (run_peak s h2).1
    have := him.top
    have := him.size
    omega
  · rcases (run_peak evs h).2 with e | ⟨p, s, m, e1, e2, e3⟩
    · exact ⟨[], evs, create n, rfl, rfl, e⟩
    · exact ⟨p, s, m, e1, e2, e3.trans (run_inv p (create_inv n) e2).size⟩

/-- No assertion fails in any schedule in which nothing is handed over and the pool is not destroyed again after
it was destroyed. -/
theorem C80_asserts (n : Nat) (evs : List Ev) (h : orderly false evs = true) : run (create n) evs ≠ some none :=
  orderly_run evs (k := create n) h

/-- Three jobs, two workers, both asleep at the start; destroyed with a job under way. -/
def sample : List Ev :=
  [.work 0 0, .work 1 0, .enq 7 1, .enq 8 0, .enq 9 0, .work 0 0, .destroy 0, .work 1 0, .finish 0, .work 0 0,
   .finish 1, .work 1 0, .finish 0, .work 0 0, .joined]

def sampleEnd : Pool :=
  { q := [], shut := true, ws := [.gone, .gone], size := 0, maxSize := 3, processed := 3, destroyed := true,
    given := [7, 8, 9], started := [7, 8, 9], done := [7, 8, 9] }

example : run (create 2) sample = some (some sampleEnd) := by decide +kernel
example : gives sample = [7, 8, 9] := rfl
example : orderly false sample = true := rfl
example : (run (create 2) (sample.take 5)).map (·.map (fun k => (k.q, k.ws))) =
    some (some ([7, 8, 9], [.ready, .ready])) := by decide +kernel
example : (run (create 2) (sample.take 7)).map (·.map (fun k => (k.shut, k.destroyed, left k))) =
    some (some (true, false, 9)) := by decide +kernel
example : (run (create 2) (sample.take 6)).map (·.map (fun k => (k.shut, ahead k))) =
    some (some (false, 9)) := by decide +kernel

/-- With no worker, destroying a pool drops the jobs that wait. -/
theorem C80_no_worker_refuted : ∃ k, run (create 0) [.enq 7 0, .destroy 0, .joined] = some (some k) ∧
    k.destroyed = true ∧ k.q = [7] ∧ k.done = [] :=
  ⟨{ q := [7], shut := true, ws := [], size := 1, maxSize := 1, processed := 0, destroyed := true,
     given := [7], started := [], done := [] }, rfl, rfl, rfl, rfl⟩

/-! ## Waiting for the background jobs of a file -/

/-- When the wait has returned and the file was not opened again, no background job holds the file and none can
be added. -/
theorem C80_wait_returned (es : List JEv) (s : Jobs) (h : jrun Jobs.init es = some (some s))
    (hr : s.returned = true) : s.holders = [] ∧ ∀ t, jact s (.add t) = some (some (s, some false)) := by
  have hi := jrun_inv es jinit_inv h
  obtain ⟨h1, h2, _, _⟩ := hi.over hr
  refine ⟨List.eq_nil_of_length_eq_zero (by rw [← hi.num, h2]), fun t => ?_⟩
  simp only [jact, h1]
  rfl

/-- A thread that sleeps in the wait has a job to wait for, no job is added meanwhile, and taking away the last
job wakes it; once awake with no job left, it returns. -/
theorem C80_wait_wakes (es : List JEv) (s : Jobs) (h : jrun Jobs.init es = some (some s))
    (hw : s.waiting = true ∨ s.woken = true) :
    (s.waiting = true → s.holders ≠ []) ∧
    (∀ t, jact s (.add t) = some (some (s, some false))) ∧
    (∀ t, s.holders = [t] → ∃ u, jact s (.remove t) = some (some (u, none)) ∧ u.woken = true ∧ u.holders = []) ∧
    (s.holders = [] → ∃ u, jact s .look = some (some (u, none)) ∧ u.returned = true) := by
  have hi := jrun_inv es jinit_inv h
  have acc : s.accepting = false := by
    rcases hw with w | w
    · exact (hi.asleep w).1
    · exact hi.woken w
  refine ⟨?_, ?_, ?_, ?_⟩
  · intro w e
    have := (hi.asleep w).2
    rw [hi.num, e] at this
    exact absurd this (by decide)
  · intro t; simp only [jact, acc]; rfl
  · intro t e
    have n1 : s.num = 1 := by rw [hi.num, e]; rfl
    refine ⟨{ s with
      num := s.num - 1
      holders := s.holders.erase t
      waiting := false
      woken := s.woken || s.waiting }, ?_, ?_, ?_⟩
    · simp only [jact]
      rw [if_pos (by rw [e]; exact List.mem_cons_self ..), if_neg (by rw [n1]; decide),
        if_pos ⟨by rw [n1], acc⟩]
    · show (s.woken || s.waiting) = true
      rcases hw with w | w <;> simp [w]
    · show s.holders.erase t = []
      rw [e]; simp
  · intro e
    have n0 : s.num = 0 := by rw [hi.num, e]; rfl
    have wk : s.woken = true := by
      rcases hw with w | w
      · have := (hi.asleep w).2
        omega
      · exact w
    refine ⟨{ s with woken := false, returned := true }, ?_, rfl⟩
    simp only [jact]
    rw [if_pos wk, if_neg (by omega)]

/-- The number of background jobs is the number of accepted jobs not removed, and no assertion fails in any
schedule in which the file is opened again only after a wait for its jobs has returned. -/
theorem C80_jobs_counted (es : List JEv) :
    (∀ s, jrun Jobs.init es = some (some s) → s.num = s.holders.length) ∧
    (careful es Jobs.init = true → jrun Jobs.init es ≠ some none) :=
  ⟨fun _ h => (jrun_inv es jinit_inv h).num, fun c => careful_run es jinit_inv c⟩

/-- A job is accepted before a wait is called and after the file was opened again. -/
theorem C80_accepted (s t : Jobs) (i : Nat) (r : Option Bool) :
    (jact Jobs.init (.add i)).isSome ∧ (∀ u, jact Jobs.init (.add i) = some (some (u, r)) → r = some true) ∧
    (jact s .reset = some (some (t, none)) → ∃ u, jact t (.add i) = some (some (u, some true)) ∧
      u.holders = i :: t.holders) := by
  refine ⟨rfl, ?_, ?_⟩
  · intro u h; simp only [jact, Jobs.init] at h; cases h; rfl
  · intro h
    have acc : t.accepting = true := by
      simp only [jact] at h
      split at h
      · cases h
      · split at h
        · cases h; rfl
        · cases h
    refine ⟨{ t with num := t.num + 1, holders := i :: t.holders }, ?_, rfl⟩
    simp only [jact]
    rw [if_pos acc]

def jsample : List JEv := [.add 1, .add 2, .wait, .remove 1, .add 3, .spurious, .look, .remove 2, .look]

example : jrun Jobs.init jsample = some (some
    { accepting := false, num := 0, waiting := false, woken := false, returned := true, holders := [] }) := by
  decide +kernel
example : jrun Jobs.init (jsample.take 4) = some (some
    { accepting := false, num := 1, waiting := true, woken := false, returned := false, holders := [2] }) := by
  decide +kernel
example : careful (jsample ++ [.reset, .add 3]) Jobs.init = true := by decide +kernel

end Verif.Workers
