import Verif.Cron.Spacing
/-! Periodic work: the theorems. -/
namespace Verif.Cron

theorem whole_sp {t0 : Nat} {s : St} (h : ReachedWhole t0 s) : Inv s ∧ Sp t0 s := by
  obtain ⟨period, as, h1, h2, h3⟩ := h
  exact ⟨run_inv as _ s (setup_inv t0 period) h3, run_sp as _ s (setup_inv t0 period) (setup_sp t0 period h1) h2 h3⟩

theorem shut_kept {s s' : St} {a : Act} (ha : act s a = some (some s')) (hn : a ≠ .shutdown) : s'.shut = s.shut := by
  cases a with
  | shutdown => exact absurd rfl hn
  | change p =>
    unfold act at ha
    dsimp only at ha
    split at ha <;> cases ha
    exact (signal_rest _).2.2.2.1
  | top =>
    unfold act at ha
    dsimp only at ha
    repeat' split at ha
    all_goals cases ha
    all_goals rfl
  | woke =>
    unfold act at ha
    dsimp only at ha
    repeat' split at ha
    all_goals cases ha
    all_goals rfl
  | timeout =>
    unfold act at ha
    dsimp only at ha
    repeat' split at ha
    all_goals cases ha
    all_goals rfl
  | slept =>
    unfold act at ha
    dsimp only at ha
    repeat' split at ha
    all_goals cases ha
    all_goals rfl
  | tick d =>
    cases ha
    rfl
  | _ =>
    unfold act at ha
    dsimp only at ha
    split at ha <;> cases ha <;> rfl

theorem run_ok {t0 : Nat} : ∀ (as : List Act) (s : St), Inv s → Sp t0 s → AllWhole as → as.count .shutdown + s.shut.toNat ≤ 1 → run s as ≠ .crash
  | [], s, _, _, _, _ => by simp [run]
  | a :: as, s, hi, h, hw, hc => by
    have hsh : a = .shutdown → s.shut = false := by
      rintro rfl
      rw [List.count_cons_self] at hc
      cases hs : s.shut with
      | false => rfl
      | true =>
        rw [hs] at hc
        simp only [Bool.toNat_true] at hc
        omega
    unfold run
    split
    · rename_i s1 h1
      refine run_ok as s1 (act_inv hi a h1) (act_sp hi h a (fun p e => hw p (by simp [e])) h1) (fun p e => hw p (by simp [e])) ?_
      by_cases ha : a = .shutdown
      · subst ha
        rw [List.count_cons_self] at hc
        have := Bool.toNat_le s1.shut
        omega
      · rw [shut_kept h1 ha]
        rw [List.count_cons_of_ne (fun e => ha e)] at hc
        exact hc
    · rename_i h1
      exact absurd h1 (act_ok hi h a hsh)
    · simp

/-- With periods of whole seconds, or of at most one, no assertion fails, whatever the schedule, if the thread is told to end at most once. -/
theorem C78_no_crash_partial (t0 period : Nat) (as : List Act) (h : Whole period) (hw : AllWhole as) (hs : as.count .shutdown ≤ 1) :
    run (St.setup t0 period) as ≠ .crash :=
  run_ok as _ (setup_inv t0 period) (setup_sp t0 period h) hw (by simpa [St.setup] using hs)

/-- For every other period there is a moment at which setting up the thread ends the program at its first wait: the time to wake up at is not a valid one. -/
theorem C78_crash_refuted (period : Nat) (h : 1000 < period) (hp : period % 1000 ≠ 0) : ∃ t0, run (St.setup t0 period) [.lock, .top] = .crash := by
  refine ⟨999999, ?_⟩
  have h1 : (1 : Nat) ≤ period / 1000 := by omega
  have h2 : ((clock 999999).plus period).after (clock 999999) = true := by
    have hg : ((clock 999999).plus period).sec > (clock 999999).sec := by
      show 999999 / 1000000 + period / 1000 > 999999 / 1000000
      omega
    unfold Time.after
    rw [if_pos hg]
  have h3 : ((clock 999999).plus period).valid = false := by
    refine decide_eq_false ?_
    show ¬ (999999 % 1000000 * 1000 + period % 1000 * 1000000 < 1000000000)
    omega
  have h4 : ¬ period = 0 := by omega
  have h5 : ¬ period ≤ 1000 := by omega
  simp [run, act, St.setup, h2, h3, h4, h5]

/-- Calls begun with a period of more than a second come at least that period after the setup, and after every earlier call of that kind, for every schedule with whole periods. -/
theorem C78_spacing_partial (t0 : Nat) (s : St) (h : ReachedWhole t0 s) :
    (s.calls.filter Big).Pairwise (fun new old => old.1 + new.2 * 1000 ≤ new.1) ∧ ∀ c ∈ s.calls, Big c = true → t0 + c.2 * 1000 ≤ c.1 :=
  ⟨(whole_sp h).2.pw, (whole_sp h).2.f0⟩

def twice : List Act := [.lock, .top, .tick 60000000, .timeout, .woke, .due, .tick 5000000, .ret, .lock, .top, .tick 55000000, .timeout, .woke, .due]

example : ∃ s, run (St.setup 7000000 60000) twice = .ok s ∧ s.calls = [(127000000, 60000), (67000000, 60000)] := by
  refine ⟨_, rfl, ?_⟩
  decide

/-- With other periods they do not: with 1500 milliseconds two calls can be 1400 apart. -/
theorem C78_early_refuted : ∃ s, Reached s ∧ s.calls = [(12000000, 1500), (10600000, 1500)] :=
  ⟨⟨12000000, 1500, ⟨12, 0⟩, false, .calling, [(12000000, 1500), (10600000, 1500)]⟩,
    ⟨9100000, 1500, [.lock, .top, .tick 1500000, .timeout, .woke, .due, .tick 1400000, .ret, .lock, .top, .woke, .due], by decide⟩, rfl⟩

/-- And calls made with a period of at most a second do not count: when the period goes from half a second to a minute, the next call can come at once. -/
theorem C78_after_change_refuted : ∃ s, ReachedWhole 0 s ∧ s.calls = [(60500000, 60000), (60500000, 500)] := by
  refine ⟨⟨60500000, 60000, ⟨60, 500000000⟩, false, .calling, [(60500000, 60000), (60500000, 500)]⟩,
    ⟨500, [.tick 60000000, .lock, .top, .tick 500000, .slept, .relock, .woke, .change 60000, .ret, .lock, .top, .woke, .due], .inl (by decide), ?_, by decide⟩, rfl⟩
  intro p hp
  simp only [List.mem_cons, Act.change.injEq, reduceCtorEq, List.not_mem_nil, or_false, false_or] at hp
  subst hp
  exact .inr (by decide)

/-- A call that is due is made: if the period has passed since the setup and since every call made with a period over a second, the thread begins a call in at most four steps of its own, unless it
is in a call, or asleep for at most a second from the time when the period was short. -/
theorem C78_on_time (t0 : Nat) (s : St) (h : ReachedWhole t0 s) (hs : s.shut = false) (hp : 1000 < s.period) (h0 : t0 + s.period * 1000 ≤ s.now)
    (hc : ∀ c ∈ s.calls, Big c = true → c.1 + s.period * 1000 ≤ s.now) (h1 : s.pc ≠ .calling) (h2 : ∀ u, s.pc = .sleeping u → u ≤ s.now) :
    ∃ as s', (∀ a ∈ as, ofThread a = true) ∧ as.length ≤ 4 ∧ run s as = .ok s' ∧ s'.pc = .calling ∧ s'.calls = (s.now, s.period) :: s.calls := by
  obtain ⟨hi, hsp⟩ := whole_sp h
  have hpass : (s.last.plus s.period).after (clock s.now) = false := by
    rw [passed hi.lv (whole_big hsp.wh hp)]
    rcases hsp.le with hl | ⟨c, hc1, hc2, hl⟩
    · omega
    · have := hc c hc1 hc2
      omega
  have n0 : ¬ s.period = 0 := by omega
  have n1 : ¬ s.period ≤ 1000 := by omega
  have kwoke : act { s with pc := .woke } .woke = some (some { s with pc := .due }) := by simp [act, hs, hp, hpass]
  have ktop : act { s with pc := .top } .top = some (some { s with pc := .woke }) := by simp [act, hs, n0, n1, hpass]
  have kdue : act { s with pc := .due } .due = some (some { s with last := clock s.now, pc := .calling, calls := (s.now, s.period) :: s.calls }) := rfl
  have e : ∀ p, s.pc = p → { s with pc := p } = s := by
    intro p hpc
    rw [← hpc]
  cases hv : s.pc with
  | lock =>
    refine ⟨[.lock, .top, .woke, .due], { s with last := clock s.now, pc := .calling, calls := (s.now, s.period) :: s.calls }, by decide, by decide, ?_, rfl, rfl⟩
    have a1 : act s .lock = some (some { s with pc := .top }) := by simp only [act, hv]
    simp [run, a1, ktop, kwoke, kdue]
  | top =>
    refine ⟨[.top, .woke, .due], { s with last := clock s.now, pc := .calling, calls := (s.now, s.period) :: s.calls }, by decide, by decide, ?_, rfl, rfl⟩
    rw [e _ hv] at ktop
    simp [run, ktop, kwoke, kdue]
  | waitU b =>
    cases b with
    | false => exact absurd (hi.wu hv).2 n0
    | true =>
      refine ⟨[.wake, .woke, .due], { s with last := clock s.now, pc := .calling, calls := (s.now, s.period) :: s.calls }, by decide, by decide, ?_, rfl, rfl⟩
      have a1 : act s .wake = some (some { s with pc := .woke }) := by simp only [act, hv]
      simp [run, a1, kwoke, kdue]
  | sleeping u =>
    refine ⟨[.slept, .relock, .woke, .due], { s with last := clock s.now, pc := .calling, calls := (s.now, s.period) :: s.calls }, by decide, by decide, ?_, rfl, rfl⟩
    have a1 : act s .slept = some (some { s with pc := .slept }) := by simp only [act, hv, if_pos (h2 u hv)]
    have a2 : act { s with pc := .slept } .relock = some (some { s with pc := .woke }) := rfl
    simp [run, a1, a2, kwoke, kdue]
  | slept =>
    refine ⟨[.relock, .woke, .due], { s with last := clock s.now, pc := .calling, calls := (s.now, s.period) :: s.calls }, by decide, by decide, ?_, rfl, rfl⟩
    have a1 : act s .relock = some (some { s with pc := .woke }) := by simp only [act, hv]
    simp [run, a1, kwoke, kdue]
  | waitT u b =>
    cases b with
    | false =>
      obtain ⟨_, _, hu⟩ := hi.wt u hv
      refine ⟨[.timeout, .woke, .due], { s with last := clock s.now, pc := .calling, calls := (s.now, s.period) :: s.calls }, by decide, by decide, ?_, rfl, rfl⟩
      have a1 : act s .timeout = some (some { s with pc := .woke }) := by simp [act, hv, hu, hpass]
      simp [run, a1, kwoke, kdue]
    | true =>
      refine ⟨[.wake, .woke, .due], { s with last := clock s.now, pc := .calling, calls := (s.now, s.period) :: s.calls }, by decide, by decide, ?_, rfl, rfl⟩
      have a1 : act s .wake = some (some { s with pc := .woke }) := by simp only [act, hv]
      simp [run, a1, kwoke, kdue]
  | woke =>
    refine ⟨[.woke, .due], { s with last := clock s.now, pc := .calling, calls := (s.now, s.period) :: s.calls }, by decide, by decide, ?_, rfl, rfl⟩
    rw [e _ hv] at kwoke
    simp [run, kwoke, kdue]
  | due =>
    refine ⟨[.due], { s with last := clock s.now, pc := .calling, calls := (s.now, s.period) :: s.calls }, by decide, by decide, ?_, rfl, rfl⟩
    have a1 : act s .due = some (some { s with last := clock s.now, pc := .calling, calls := (s.now, s.period) :: s.calls }) := by simp only [act, hv]
    simp [run, a1]
  | calling => exact absurd hv h1
  | done =>
    have := hi.dn hv
    rw [hs] at this
    cases this

/-- A wait is always for what is asked now: without end only if the period is zero, otherwise till the period has passed since the last call, and never when the thread has been told to end; a sleep
without the condition variable lasts at most a second.  So no change of the period and no shutdown is missed. -/
theorem C78_not_missed (s : St) (h : Reached s) :
    (s.pc = .waitU false → s.shut = false ∧ s.period = 0)
      ∧ (∀ u, s.pc = .waitT u false → s.shut = false ∧ 1000 < s.period ∧ u.real = s.last.real + s.period * 1000000)
      ∧ (∀ u, s.pc = .sleeping u → u ≤ s.now + 1000000) := by
  have hi := reached_inv h
  refine ⟨hi.wu, fun u hu => ?_, hi.sl⟩
  obtain ⟨a, b, c⟩ := hi.wt u hu
  refine ⟨a, b, ?_⟩
  rw [c]
  simp only [Time.plus, Time.real]
  omega

example : ∃ s, run (St.setup 7000000 0) [.lock, .top] = .ok s ∧ s.pc = .waitU false := ⟨_, rfl, by decide⟩
example : ∃ s, run (St.setup 7000000 0) [.lock, .top, .change 2000, .wake, .woke, .top] = .ok s ∧ s.pc = .waitT ⟨9, 0⟩ false := ⟨_, rfl, by decide⟩

/-- Setting a period and telling the thread to end take effect when they return, and are possible whenever the thread does not hold the mutex. -/
theorem C78_takes_effect (s : St) (hh : s.pc.holds = false) (p : Nat) :
    (∃ s', act s (.change p) = some (some s') ∧ s'.period = p ∧ s'.shut = s.shut ∧ s'.calls = s.calls)
      ∧ (s.shut = false → ∃ s', act s .shutdown = some (some s') ∧ s'.shut = true ∧ s'.period = s.period ∧ s'.calls = s.calls) := by
  constructor
  · refine ⟨_, by simp [act, hh]; rfl, ?_, ?_, ?_⟩
    · exact (signal_rest _).2.1
    · exact (signal_rest _).2.2.2.1
    · exact (signal_rest _).2.2.2.2
  · intro hs
    refine ⟨_, by simp [act, hh, hs]; rfl, ?_, ?_, ?_⟩
    · exact (signal_rest _).2.2.2.1
    · exact (signal_rest _).2.1
    · exact (signal_rest _).2.2.2.2

/-- What a step does to the calls. -/
theorem act_calls {s s' : St} (hi : Inv s) (a : Act) (ha : act s a = some (some s')) :
    s'.calls = s.calls ∨ (s'.calls = (s.now, s.period) :: s.calls ∧ s.period ≠ 0 ∧ s.shut = false) := by
  cases a with
  | shutdown =>
    unfold act at ha
    dsimp only at ha
    repeat' split at ha
    all_goals cases ha
    exact .inl (signal_rest _).2.2.2.2
  | change p =>
    unfold act at ha
    dsimp only at ha
    split at ha <;> cases ha
    exact .inl (signal_rest _).2.2.2.2
  | top =>
    unfold act at ha
    dsimp only at ha
    repeat' split at ha
    all_goals cases ha
    all_goals exact .inl rfl
  | woke =>
    unfold act at ha
    dsimp only at ha
    split at ha
    · split at ha
      · cases ha
        exact .inl rfl
      · rename_i hs
        split at ha
        · split at ha <;> cases ha <;> exact .inl rfl
        · split at ha <;> cases ha
          · rename_i hp
            exact .inr ⟨rfl, hp, by simpa using hs⟩
          · exact .inl rfl
    · cases ha
  | due =>
    unfold act at ha
    dsimp only at ha
    split at ha <;> cases ha
    rename_i hpc
    obtain ⟨h1, h2⟩ := hi.du hpc
    exact .inr ⟨rfl, by omega, h1⟩
  | timeout =>
    unfold act at ha
    dsimp only at ha
    repeat' split at ha
    all_goals cases ha
    all_goals exact .inl rfl
  | slept =>
    unfold act at ha
    dsimp only at ha
    repeat' split at ha
    all_goals cases ha
    all_goals exact .inl rfl
  | tick d =>
    cases ha
    exact .inl rfl
  | _ =>
    unfold act at ha
    dsimp only at ha
    split at ha <;> cases ha <;> exact .inl rfl

/-- A call is begun only while the period is not zero and the thread has not been told to end, and is then the only one. -/
theorem C78_only_if_asked (s s' : St) (h : Reached s) (a : Act) (ha : act s a = some (some s')) :
    s'.calls = s.calls ∨ (s'.calls = (s.now, s.period) :: s.calls ∧ s.period ≠ 0 ∧ s.shut = false) := act_calls (reached_inv h) a ha

theorem shut_stays {s s' : St} {a : Act} (ha : act s a = some (some s')) (hs : s.shut = true) : s'.shut = true := by
  by_cases h : a = .shutdown
  · subst h
    unfold act at ha
    dsimp only at ha
    rw [hs] at ha
    split at ha <;> cases ha
  · rw [shut_kept ha h]
    exact hs

/-- Once the thread has been told to end, no call is begun, whatever happens. -/
theorem C78_no_call_after (s s' : St) (h : Reached s) (hs : s.shut = true) (as : List Act) (hr : run s as = .ok s') : s'.calls = s.calls := by
  have hi := reached_inv h
  clear h
  induction as generalizing s with
  | nil =>
    simp only [run, Out.ok.injEq] at hr
    rw [hr]
  | cons a as ih =>
    unfold run at hr
    split at hr
    · rename_i s1 h1
      have h2 := ih s1 (shut_stays h1 hs) hr (act_inv hi a h1)
      rcases act_calls hi a h1 with h3 | ⟨_, _, h3⟩
      · rw [h2, h3]
      · rw [hs] at h3
        cases h3
    · cases hr
    · cases hr

/-- It ends in at most three steps of its own, once a call in progress returns and a sleep of at most a second is over. -/
theorem C78_stops (s : St) (h : Reached s) (hs : s.shut = true) (h2 : ∀ u, s.pc = .sleeping u → u ≤ s.now) :
    ∃ as s', (∀ a ∈ as, ofThread a = true) ∧ as.length ≤ 3 ∧ run s as = .ok s' ∧ s'.pc = .done := by
  have hi := reached_inv h
  have kwoke : act { s with pc := .woke } .woke = some (some { s with pc := .done }) := by simp [act, hs]
  have ktop : act { s with pc := .top } .top = some (some { s with pc := .done }) := by simp [act, hs]
  have klock : act { s with pc := .lock } .lock = some (some { s with pc := .top }) := rfl
  have e : ∀ p, s.pc = p → { s with pc := p } = s := by
    intro p hpc
    rw [← hpc]
  cases hv : s.pc with
  | lock =>
    rw [e _ hv] at klock
    exact ⟨[.lock, .top], { s with pc := .done }, by decide, by decide, by simp [run, klock, ktop], rfl⟩
  | top =>
    rw [e _ hv] at ktop
    exact ⟨[.top], { s with pc := .done }, by decide, by decide, by simp [run, ktop], rfl⟩
  | waitU b =>
    cases b with
    | false =>
      have := (hi.wu hv).1
      rw [hs] at this
      cases this
    | true =>
      have a1 : act s .wake = some (some { s with pc := .woke }) := by simp only [act, hv]
      exact ⟨[.wake, .woke], { s with pc := .done }, by decide, by decide, by simp [run, a1, kwoke], rfl⟩
  | sleeping u =>
    have a1 : act s .slept = some (some { s with pc := .slept }) := by simp only [act, hv, if_pos (h2 u hv)]
    have a2 : act { s with pc := .slept } .relock = some (some { s with pc := .woke }) := rfl
    exact ⟨[.slept, .relock, .woke], { s with pc := .done }, by decide, by decide, by simp [run, a1, a2, kwoke], rfl⟩
  | slept =>
    have a1 : act s .relock = some (some { s with pc := .woke }) := by simp only [act, hv]
    exact ⟨[.relock, .woke], { s with pc := .done }, by decide, by decide, by simp [run, a1, kwoke], rfl⟩
  | waitT u b =>
    cases b with
    | false =>
      have := (hi.wt u hv).1
      rw [hs] at this
      cases this
    | true =>
      have a1 : act s .wake = some (some { s with pc := .woke }) := by simp only [act, hv]
      exact ⟨[.wake, .woke], { s with pc := .done }, by decide, by decide, by simp [run, a1, kwoke], rfl⟩
  | woke =>
    rw [e _ hv] at kwoke
    exact ⟨[.woke], { s with pc := .done }, by decide, by decide, by simp [run, kwoke], rfl⟩
  | due =>
    have := (hi.du hv).1
    rw [hs] at this
    cases this
  | calling =>
    have a1 : act s .ret = some (some { s with pc := .lock }) := by simp only [act, hv]
    exact ⟨[.ret, .lock, .top], { s with pc := .done }, by decide, by decide, by simp [run, a1, klock, ktop], rfl⟩
  | done => exact ⟨[], s, by decide, by decide, rfl, hv⟩

example : ∃ s, run (St.setup 7000000 60000) (twice ++ [.shutdown]) = .ok s ∧ s.shut = true ∧ s.pc = .calling := ⟨_, rfl, by decide⟩

/-- A period set in seconds is the one in force, and the one told, exactly if it is less than 2^32 milliseconds. -/
theorem C78_seconds_partial (n : Nat) : (ofSeconds n = n * 1000 ↔ n * 1000 < 2 ^ 32) ∧ (n * 1000 < 2 ^ 32 → inSeconds (ofSeconds n) = n ∧ Whole (ofSeconds n)) := by
  simp only [ofSeconds, inSeconds, Whole]
  refine ⟨⟨fun h => ?_, fun h => Nat.mod_eq_of_lt h⟩, fun h => ?_⟩
  · rw [← h]
    exact Nat.mod_lt _ (by decide)
  · rw [Nat.mod_eq_of_lt h]
    exact ⟨by omega, .inr (by omega)⟩

/-- Fifty days become seven tenths of a second, which is told as zero; seventeen years mean never; and fifty days and two seconds are a period that is not whole. -/
theorem C78_seconds_refuted : ofSeconds 4294968 = 704 ∧ inSeconds (ofSeconds 4294968) = 0 ∧ ofSeconds 536870912 = 0 ∧ ofSeconds 4294970 = 2704 ∧ ¬ Whole (ofSeconds 4294970) := by
  refine ⟨by decide, by decide, by decide, by decide, ?_⟩
  simp only [Whole, ofSeconds]
  omega

end Verif.Cron
