import Verif.Evict.Calm
/-! Flow control: the theorems. -/
namespace Verif.Evict

theorem reached_inv {c : Cfg} {s : St} (h : Reached c s) : Inv s := by
  obtain ⟨n, as, h⟩ := h
  exact (run_inv as _ (init_inv n)).2 s h

theorem calmly_safe {c : Cfg} {s : St} (h : ReachedCalmly c s) : Inv s ∧ Safe c s := by
  obtain ⟨n, as, h, hc⟩ := h
  exact ⟨(run_inv as _ (init_inv n)).2 s h, run_safe as _ s (init_inv n) (init_safe c n) hc h⟩

/-- The four limits are in order, and the first is the size asked for, for every size asked for. -/
theorem C77_limits (limit : Int) (h : 0 ≤ limit) :
    (Cfg.of limit).low = limit ∧ limit ≤ (Cfg.of limit).lowH ∧ (Cfg.of limit).lowH ≤ (Cfg.of limit).highH ∧ (Cfg.of limit).highH ≤ (Cfg.of limit).highW
      ∧ (Cfg.of limit).highW ≤ limit + 3 * 2 ^ 29 := by
  unfold Cfg.of
  dsimp only
  refine ⟨rfl, ?_, ?_, ?_, ?_⟩
  · split <;> omega
  · split <;> split <;> omega
  · split <;> split <;> split <;> omega
  · split <;> split <;> split <;> omega

example : Cfg.of 100 = ⟨100, 110, 125, 150⟩ := by decide
example : Cfg.of (2 ^ 34) = ⟨2 ^ 34, 2 ^ 34 + 2 ^ 29, 2 ^ 34 + 2 ^ 30, 2 ^ 34 + 3 * 2 ^ 29⟩ := by decide

/-- No schedule of clients, background evictions, the eviction thread and changes of size makes an assertion fail. -/
theorem C77_no_assertion (c : Cfg) (n : Nat) (as : List Act) : run c (St.init n) as ≠ .crash := (run_inv as _ (init_inv n)).1

/-- The size that is thought to be on its way out is, at every moment, what the background evictions under way have promised; so it is never negative, and it is zero when
there are none, as `destroy` asserts. -/
theorem C77_promises (c : Cfg) (s : St) (h : Reached c s) : s.evicting = promised s ∧ (NoJobs s → s.evicting = 0) := by
  have hi := (reached_inv h).ev
  refine ⟨hi, fun ⟨h1, h2, h3⟩ => ?_⟩
  have h4 : ∀ l : List Pc, (∀ (t e : Nat), l[t]? ≠ some (.job e)) → (l.map promise).sum = 0 := by
    intro l
    induction l with
    | nil => intro _; rfl
    | cons x l ih =>
      intro hl
      have h5 := ih (fun t e => by have := hl (t + 1) e; simpa using this)
      have h6 : promise x = 0 := by
        cases x with
        | job e => exact absurd rfl (hl 0 e)
        | _ => rfl
      simp only [List.map_cons, List.sum_cons, h5, h6]
  have h5 : handing s.ev = 0 := by
    cases he : s.ev with
    | enq e => exact absurd he (h3 e)
    | _ => rfl
  rw [hi, promised, h1, h4 _ h2, h5]
  rfl

/-- The number of sleepers is, at every moment, the number of threads inside the wait. -/
theorem C77_counted (c : Cfg) (s : St) (h : Reached c s) : s.sleepers = s.thr.countP (fun p => p = .asleep ∨ p = .woken) := by
  rw [(reached_inv h).sl]
  generalize s.thr = l
  induction l with
  | nil => rfl
  | cons x l ih =>
    rw [List.map_cons, List.sum_cons, ih, List.countP_cons]
    cases x <;> simp [heldN] <;> omega

/-- A client that sleeps is not forgotten, if nobody adds to the cache between the last two looks of a run of the eviction thread: while it sleeps, either the eviction thread
is at work or has been called, or background evictions have promised more than what lies between the lower limit and the limit for letting clients go. -/
theorem C77_not_forgotten_partial (c : Cfg) (s : St) (h : ReachedCalmly c s) (ha : Asleep s) : ¬ EvictorSleeps s ∨ c.highH - c.low < promised s := by
  obtain ⟨hi, hs⟩ := calmly_safe h
  by_cases he : EvictorSleeps s
  · exact .inr (hi.ev ▸ hs.wt he ha)
  · exact .inl he

/-- So when the eviction thread sleeps and no background eviction is left, no client sleeps. -/
theorem C77_quiet_partial (c : Cfg) (s : St) (hl : c.low ≤ c.highH) (h : ReachedCalmly c s) (hj : NoJobs s) (he : EvictorSleeps s) : ¬ Asleep s := by
  intro ha
  obtain ⟨hi, hs⟩ := calmly_safe h
  have h1 := hs.wt he ha
  obtain ⟨n, as, hr, _⟩ := h
  have := (C77_promises c s ⟨n, as, hr⟩).2 hj
  omega

def slept : List Act := [.size 200, .look 0, .evLock, .evTop, .evTest, .evWake, .lie 0, .table 3, .evJob 100, .evAdd, .evEnq, .evRelock, .evTest, .evExit]

/-- A state in which a client sleeps, the eviction thread too, and a background eviction is queued. -/
example : ∃ s, run (Cfg.of 100) (St.init 2) slept = .ok s ∧ s.thr = [.asleep, .idle] ∧ s.ev = .waiting false ∧ s.queue = [100] ∧ s.evicting = 100 := by
  refine ⟨_, rfl, ?_⟩
  decide

/-- A background thread finishes it, which calls the eviction thread, which lets the client go. -/
example : ∃ s, run (Cfg.of 100) (St.init 2) (slept ++ [.take 1, .finish 1, .size (-100), .evLock, .evTop, .evTest, .evExit, .rise 0]) = .ok s
    ∧ s.thr = [.idle, .idle] ∧ s.sleepers = 0 ∧ s.ev = .waiting false := by
  refine ⟨_, rfl, ?_⟩
  decide

/-- A schedule in which a client adds to the cache between the two looks. -/
def stall : List Act :=
  [.size 200, .look 0, .evLock, .evTop, .evTest, .evWake, .lie 0, .evStale (-100), .evRelock, .evTest, .size 30, .ask 1, .evExit, .size (-80)]

/-- Where it ends. -/
def stalled : St := ⟨50, 0, 1, false, true, 0, [], .waiting false, [.asleep, .idle]⟩

/-- Without that condition it is false: a client sleeps, the eviction thread sleeps, nothing is under way, the cache is half empty, and no other client that looks at the cache
finds a reason to call the eviction thread.  Only its timer ends this, which the code allows to be switched off. -/
theorem C77_stall_refuted : ∃ s, Reached (Cfg.of 100) s ∧ Asleep s ∧ EvictorSleeps s ∧ NoJobs s ∧ 2 * s.current ≤ (Cfg.of 100).low
    ∧ ∀ t s', (act (Cfg.of 100) s (.ask t) = some (some s') ∨ act (Cfg.of 100) s (.look t) = some (some s')) → s' = s := by
  refine ⟨stalled, ⟨2, stall, by decide⟩, ⟨0, rfl⟩, rfl, ⟨rfl, ?_, ?_⟩, by decide, ?_⟩
  · intro t e
    match t with
    | 0 => simp [stalled]
    | 1 => simp [stalled]
    | t + 2 => simp [stalled]
  · intro e h
    cases h
  · have h1 : St.shouldPoke (Cfg.of 100) stalled = false := by decide
    have h2 : St.shouldSleep (Cfg.of 100) stalled = false := by decide
    intro t s' h
    rcases h with h | h
    · simp only [act, h1] at h
      split at h
      · simp only [Bool.false_eq_true, if_false, Option.some.injEq] at h
        exact h.symm
      · cases h
    · simp only [act, h2] at h
      split at h
      · simp only [Bool.false_eq_true, if_false, Option.some.injEq] at h
        exact h.symm
      · cases h

/-- From any state at all that the program can reach, the first call of the eviction thread, by its timer or by anyone, makes the promise good again. -/
theorem C77_timer_repairs (c : Cfg) (s s' : St) (h : Reached c s) (he : s.ev = .waiting true) (as : List Act) (hc : Calm c s as) (hr : run c s as = .ok s') :
    (Asleep s' → ¬ EvictorSleeps s' ∨ c.highH - c.low < promised s') ∧ (c.low ≤ c.highH → NoJobs s' → EvictorSleeps s' → ¬ Asleep s') := by
  have hi := reached_inv h
  have hs : Safe c s := Safe.elsewhere (by rw [he]; simp) (by rw [he]; simp)
  have hi' := (run_inv as s hi).2 s' hr
  have hs' := run_safe as s s' hi hs hc hr
  have key : Asleep s' → EvictorSleeps s' → c.highH - c.low < promised s' := fun ha hw => hi'.ev ▸ hs'.wt hw ha
  refine ⟨fun ha => ?_, fun hl hj hw ha => ?_⟩
  · by_cases hw : EvictorSleeps s'
    · exact .inr (key ha hw)
    · exact .inl hw
  · have h1 := key ha hw
    obtain ⟨n, bs, hb⟩ := h
    have happ : ∀ (bs : List Act) (s0 : St), run c s0 bs = .ok s → run c s0 (bs ++ as) = .ok s' := by
      intro bs
      induction bs with
      | nil =>
        intro s0 h0
        simp only [run, Out.ok.injEq] at h0
        subst h0
        exact hr
      | cons b bs ih =>
        intro s0 h0
        simp only [List.cons_append, run] at h0 ⊢
        split at h0
        · rename_i s1 h1
          exact ih s1 h0
        · cases h0
        · cases h0
    have h2 := C77_promises c s' ⟨n, bs ++ as, happ bs _ hb⟩
    have h3 := h2.1
    have h4 := h2.2 hj
    omega

/-- The stalled state above, after the timer and the run that follows: the client is let go. -/
example : ∃ s, run (Cfg.of 100) (St.init 2) (stall ++ [.timer, .evLock, .evTop, .evTest, .evExit, .rise 0]) = .ok s ∧ s.thr = [.idle, .idle] := by
  refine ⟨_, rfl, ?_⟩
  decide

/-- The steps of a run of the eviction thread that finds every pair in use. -/
def inUse : Act → Bool
  | .evLock | .evTop | .evTest | .evWake | .evBusy | .evEarly | .evRelock | .evExit => true
  | _ => false

/-- The steps of the eviction thread that no other thread takes part in. -/
def own (a : Act) : Bool := inUse a || a == .evAdd || a == .evEnq

/-- How many steps such a run still has at most. -/
def left (s : St) : Nat :=
  match s.ev with
  | .waiting true => 4 * s.pairs + 12
  | .top => if s.run then 4 * s.pairs + 11 else 1
  | .relock k => 4 * (s.pairs + 1 - k) + 7
  | .test k => 4 * (s.pairs + 1 - k) + 6
  | .wake k => 4 * (s.pairs + 1 - k) + 5
  | .out k => 4 * (s.pairs + 1 - k) + 4
  | .relockEarly => 3
  | .exit _ => 2
  | _ => 0

theorem left_act {c : Cfg} {s s' : St} {a : Act} (hu : inUse a = true) (ha : act c s a = some (some s')) : left s' < left s ∧ s'.pairs = s.pairs := by
  cases a <;> first | cases hu | skip
  case evLock =>
    unfold act at ha
    dsimp only at ha
    split at ha <;> cases ha
    rename_i hb
    simp only [left, hb]
    split <;> simp <;> omega
  case evTop =>
    unfold act at ha
    dsimp only at ha
    split at ha
    · rename_i hb
      split at ha <;> cases ha
      · rename_i hr
        refine ⟨?_, rfl⟩
        simp only [left, hb, hr, if_true]
        omega
      · rename_i hr
        simp only [left, hb, hr]
        simp
    · cases ha
  case evTest =>
    unfold act at ha
    dsimp only at ha
    split at ha
    · rename_i k hb
      split at ha <;> cases ha <;> refine ⟨?_, rfl⟩ <;> simp only [left, hb] <;> omega
    · cases ha
  case evWake =>
    unfold act at ha
    dsimp only at ha
    split at ha
    · rename_i k hb
      cases ha
      have hp : ∀ b : Bool, (if b = true then s.broadcast else s).pairs = s.pairs := by
        intro b
        cases b <;> rfl
      refine ⟨?_, hp _⟩
      simp only [left, hb, hp]
      omega
    · cases ha
  case evBusy =>
    unfold act at ha
    dsimp only at ha
    split at ha
    · rename_i k hb
      split at ha <;> cases ha
      refine ⟨?_, rfl⟩
      simp only [left, hb]
      omega
    · cases ha
  case evEarly =>
    unfold act at ha
    dsimp only at ha
    split at ha
    · rename_i k hb
      split at ha <;> cases ha
      refine ⟨?_, rfl⟩
      simp only [left, hb]
      omega
    · cases ha
  case evRelock =>
    unfold act at ha
    dsimp only at ha
    split at ha
    · rename_i k hb
      cases ha
      refine ⟨?_, rfl⟩
      simp only [left, hb]
      omega
    · rename_i hb
      cases ha
      refine ⟨?_, rfl⟩
      simp only [left, hb]
      omega
    · cases ha
  case evExit =>
    unfold act at ha
    dsimp only at ha
    split at ha
    · rename_i early hb
      cases ha
      have hp : ∀ b : Bool, (if b = true then s.broadcast else s).pairs = s.pairs := by
        intro b
        cases b <;> rfl
      have hq : ∀ b : Bool, (if b = true then s.broadcast else s).run = s.run := by
        intro b
        cases b <;> rfl
      simp only [left, hb, hp, hq]
      cases s.run <;> simp
    · cases ha

/-- Such a run ends: when every pair is in use, and nobody else acts, the eviction thread takes at most `4 * pairs + 12` steps from being called to its next wait; it can always take
the next step until then; and when it waits again every client has been let go, or background evictions have promised enough. -/
theorem C77_all_in_use (c : Cfg) (s s' : St) (h : Reached c s) (he : s.ev = .waiting true) (as : List Act) (hu : ∀ a ∈ as, inUse a = true) (hr : run c s as = .ok s') :
    as.length ≤ 4 * s.pairs + 12
      ∧ ((∃ a s'', own a = true ∧ act c s' a = some (some s'')) ∨ s'.ev = .waiting false ∨ s'.ev = .done)
      ∧ (EvictorSleeps s' → Asleep s' → c.highH - c.low < promised s') := by
  have hcalm : ∀ (as : List Act) (s : St), (∀ a ∈ as, inUse a = true) → Calm c s as := by
    intro as
    induction as with
    | nil => intro _ _; trivial
    | cons a as ih =>
      intro s hu
      refine ⟨fun _ d hd => ?_, ?_⟩
      · have := hu a (by simp)
        rw [hd] at this
        cases this
      · split
        · exact ih _ (fun b hb => hu b (by simp [hb]))
        · trivial
  have hlen : ∀ (as : List Act) (s : St), (∀ a ∈ as, inUse a = true) → run c s as = .ok s' → as.length ≤ left s := by
    intro as
    induction as with
    | nil => intro s _ _; simp
    | cons a as ih =>
      intro s hu hr
      unfold run at hr
      split at hr
      · rename_i s1 h1
        have := ih s1 (fun b hb => hu b (by simp [hb])) hr
        have := left_act (hu a (by simp)) h1
        simp only [List.length_cons]
        omega
      · cases hr
      · cases hr
  refine ⟨?_, ?_, ?_⟩
  · have := hlen as s hu hr
    simp only [left, he] at this
    exact this
  · cases hv : s'.ev with
    | waiting b =>
      cases b with
      | false => exact .inr (.inl rfl)
      | true => exact .inl ⟨.evLock, _, rfl, by simp only [act, hv]; rfl⟩
    | top =>
      cases hr' : s'.run with
      | true => exact .inl ⟨.evTop, _, rfl, by simp only [act, hv, hr', if_true]; rfl⟩
      | false => exact .inl ⟨.evTop, { s' with ev := .done }, rfl, by simp [act, hv, hr']⟩
    | test k =>
      cases hn : s'.needed c with
      | true => exact .inl ⟨.evTest, _, rfl, by simp only [act, hv, hn, if_true]; rfl⟩
      | false => exact .inl ⟨.evTest, { s' with ev := .exit false }, rfl, by simp [act, hv, hn]⟩
    | wake k => exact .inl ⟨.evWake, _, rfl, by simp only [act, hv]; rfl⟩
    | out k =>
      by_cases hp : s'.pairs = 0 ∨ k > s'.pairs
      · exact .inl ⟨.evEarly, _, rfl, by simp only [act, hv, if_pos hp]; rfl⟩
      · exact .inl ⟨.evBusy, _, rfl, by simp only [act, hv, if_neg hp]; rfl⟩
    | add e => exact .inl ⟨.evAdd, _, rfl, by simp only [act, hv]; rfl⟩
    | enq e => exact .inl ⟨.evEnq, _, rfl, by simp only [act, hv]; rfl⟩
    | relock k => exact .inl ⟨.evRelock, _, rfl, by simp only [act, hv]; rfl⟩
    | relockEarly => exact .inl ⟨.evRelock, _, rfl, by simp only [act, hv]; rfl⟩
    | exit b => exact .inl ⟨.evExit, _, rfl, by simp only [act, hv]; rfl⟩
    | done => exact .inr (.inr rfl)
  · intro hw ha
    rcases (C77_timer_repairs c s s' h he as (hcalm as s hu) hr).1 ha with h1 | h1
    · exact absurd hw h1
    · exact h1

example : ∃ s s', run (Cfg.of 100) (St.init 1) [.size 200, .table 1, .look 0, .lie 0] = .ok s ∧ s.ev = .waiting true ∧ Asleep s
    ∧ run (Cfg.of 100) s [.evLock, .evTop, .evTest, .evWake, .evBusy, .evRelock, .evTest, .evWake, .evBusy, .evRelock, .evTest, .evWake, .evEarly, .evRelock, .evExit] = .ok s'
    ∧ s'.thr = [.woken] ∧ s'.current = 200 := by
  refine ⟨_, _, rfl, rfl, ⟨0, rfl⟩, rfl, ?_⟩
  decide

/-- After `destroy` has said so, the eviction thread does not go on sleeping; when it has ended, it is not marked as running, as `destroy` asserts, and it has not ended before. -/
theorem C77_stops (c : Cfg) (s : St) (h : Reached c s) : (s.run = false → ¬ EvictorSleeps s) ∧ (s.ev = .done → s.run = false ∧ s.running = false) := by
  have hi := reached_inv h
  refine ⟨hi.st, fun hd => ⟨hi.dn hd, ?_⟩⟩
  rw [hi.rn, hd]
  rfl

example : ∃ s, run (Cfg.of 100) (St.init 1) [.evLock, .evTop, .evTest, .evExit, .stop 0, .evLock, .evTop] = .ok s ∧ s.ev = .done := by
  refine ⟨_, rfl, ?_⟩
  decide

end Verif.Evict
