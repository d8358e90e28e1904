import Verif.LockWait.Spec

/-! # C84: waiting for a row lock -/

namespace Verif.LockWait

theorem tEnd_fits {c : Cfg} {start : Nat} (h : Fits c start) : tEnd c start = start + c.waitMs * 1000 := by
  unfold Fits at h
  unfold tEnd u64
  omega

theorem tWait_fits {c : Cfg} {start now : Nat} (h : Fits c start) (hn : now < start + c.waitMs * 1000 ∨ now = start) :
    tWait c (start + c.waitMs * 1000) now =
      if c.killedMs = 0 then start + c.waitMs * 1000 else min (now + c.killedMs * 1000) (start + c.waitMs * 1000) := by
  unfold Fits at h
  have e : u64 (now + u64 (c.killedMs * 1000)) = now + c.killedMs * 1000 := by unfold u64; omega
  unfold tWait
  rw [e]
  split
  · rfl
  · rw [Nat.min_def]
    split
    · rw [if_neg (by omega)]
    · split
      · rfl
      · omega

theorem loop_timeout {c : Cfg} {e : Nat} : ∀ {rs : List Round} {now n : Nat} {o : Out}, loop c e now n rs = some o →
    o.res = .timeout → e ≤ o.at_
  | [], _, _, _, h, _ => by cases h
  | r :: rs, now, n, o, h, hr => by
    unfold loop at h
    split at h
    · cases h; cases hr
    · split at h
      · cases h; cases hr
      · cases h; cases hr
      · split at h
        · cases h; assumption
        · exact loop_timeout h hr

/-- **C84** A wait never times out before the time set has passed, whatever wakes the thread in between.  Missing: times
that do not fit in 64 bits of microseconds (see `C84_forever_refuted`). -/
theorem C84_not_early_partial {c : Cfg} {start : Nat} {first : Meanwhile} {rs : List Round} {o : Out}
    (hf : Fits c start) (h : wait c start first rs = some o) (hr : o.res = .timeout) :
    start + c.waitMs * 1000 ≤ o.at_ := by
  unfold wait at h
  split at h
  · cases h; cases hr
  · cases h; cases hr
  · rw [← tEnd_fits hf]; exact loop_timeout h hr

example : wait ⟨4000, 1000, true⟩ 500000 .pending
    [⟨false, 600000, .pending⟩, ⟨false, 1600000, .pending⟩, ⟨false, 2600000, .pending⟩, ⟨false, 3600000, .pending⟩,
     ⟨false, 4500001, .pending⟩] = some ⟨.timeout, 4500001, 5⟩ := by decide +kernel

theorem loop_late {c : Cfg} {start late : Nat} (hf : Fits c start) : ∀ {rs : List Round} {now n : Nat},
    start ≤ now → (now < start + c.waitMs * 1000 ∨ now = start) → OnTime c (start + c.waitMs * 1000) late now rs →
    (∀ o, loop c (start + c.waitMs * 1000) now n rs = some o → start ≤ o.at_ ∧ o.at_ ≤ start + c.waitMs * 1000 + late) ∧
    (loop c (start + c.waitMs * 1000) now n rs = none → clock now rs < start + c.waitMs * 1000 ∨ clock now rs = start)
  | [], now, _, hs, hn, _ => ⟨fun _ h => (by cases h), fun _ => hn⟩
  | r :: rs, now, n, hs, hn, ⟨h1, h2, h3⟩ => by
    rw [tWait_fits hf hn] at h2
    have hb : r.back ≤ start + c.waitMs * 1000 + late := by
      split at h2 <;> omega
    unfold loop
    split
    · refine ⟨fun o h => ?_, fun h => by cases h⟩
      cases h
      show start ≤ now ∧ now ≤ _
      omega
    · split
      · exact ⟨fun o h => (by cases h; exact ⟨Nat.le_trans hs h1, hb⟩), fun h => by cases h⟩
      · exact ⟨fun o h => (by cases h; exact ⟨Nat.le_trans hs h1, hb⟩), fun h => by cases h⟩
      · split
        · exact ⟨fun o h => (by cases h; exact ⟨Nat.le_trans hs h1, hb⟩), fun h => by cases h⟩
        · exact loop_late hf (by omega) (Or.inl (by omega)) h3

/-- **C84** A wait is over by the time set, but for the lateness of the operating system: when it ends, it ends by then,
and as long as it has not ended, the time has not passed. -/
theorem C84_in_time {c : Cfg} {start late : Nat} {first : Meanwhile} {rs : List Round} (hf : Fits c start)
    (ht : OnTime c (tEnd c start) late start rs) :
    (∀ o, wait c start first rs = some o → start ≤ o.at_ ∧ o.at_ ≤ start + c.waitMs * 1000 + late) ∧
    (wait c start first rs = none → clock start rs ≤ start + c.waitMs * 1000) := by
  have e := tEnd_fits hf
  rw [e] at ht
  obtain ⟨h1, h2⟩ := loop_late hf (n := 0) (Nat.le_refl _) (Or.inr rfl) ht
  cases first with
  | granted => exact ⟨fun o h => (by cases h; exact ⟨Nat.le_refl _, by dsimp only; omega⟩), fun h => by cases h⟩
  | killed => exact ⟨fun o h => (by cases h; exact ⟨Nat.le_refl _, by dsimp only; omega⟩), fun h => by cases h⟩
  | pending =>
    unfold wait
    dsimp only
    rw [e]
    exact ⟨h1, fun h => by have := h2 h; omega⟩

theorem loop_killed {c : Cfg} {start late k : Nat} (hf : Fits c start) (hk : c.killedMs ≠ 0) (hc : c.hasCallback = true) :
    ∀ {rs : List Round} {now n : Nat}, start ≤ now → (now < start + c.waitMs * 1000 ∨ now = start) →
    now ≤ max k start + c.killedMs * 1000 + late → OnTime c (start + c.waitMs * 1000) late now rs → KilledFrom k now rs →
    (∀ o, loop c (start + c.waitMs * 1000) now n rs = some o → o.at_ ≤ max k start + c.killedMs * 1000 + late) ∧
    (loop c (start + c.waitMs * 1000) now n rs = none → clock now rs ≤ max k start + c.killedMs * 1000 + late)
  | [], now, _, _, _, hl, _, _ => ⟨fun _ h => (by cases h), fun _ => hl⟩
  | r :: rs, now, n, hs, hn, hl, ⟨h1, h2, h3⟩, ⟨h4, h5⟩ => by
    rw [tWait_fits hf hn, if_neg hk] at h2
    unfold loop
    split
    · exact ⟨fun o h => (by cases h; exact hl), fun h => by cases h⟩
    · next hns =>
      have hlt : now < k := by
        rcases Nat.lt_or_ge now k with x | x
        · exact x
        · exact absurd (by rw [hc, h4 x]; rfl) hns
      have hb : r.back ≤ max k start + c.killedMs * 1000 + late := by omega
      split
      · exact ⟨fun o h => (by cases h; exact hb), fun h => by cases h⟩
      · exact ⟨fun o h => (by cases h; exact hb), fun h => by cases h⟩
      · split
        · exact ⟨fun o h => (by cases h; exact hb), fun h => by cases h⟩
        · exact loop_killed hf hk hc (by omega) (Or.inl (by omega)) hb h3 h5

/-- **C84** A thread that is killed while it waits stops waiting within the time between two questions: if the callback
says so from `k` on, the wait is over by then. -/
theorem C84_killed {c : Cfg} {start late k : Nat} {first : Meanwhile} {rs : List Round} (hf : Fits c start)
    (hk : c.killedMs ≠ 0) (hc : c.hasCallback = true) (ht : OnTime c (tEnd c start) late start rs)
    (hkf : KilledFrom k start rs) :
    (∀ o, wait c start first rs = some o → o.at_ ≤ max k start + c.killedMs * 1000 + late) ∧
    (wait c start first rs = none → clock start rs ≤ max k start + c.killedMs * 1000 + late) := by
  have e := tEnd_fits hf
  rw [e] at ht
  obtain ⟨h1, h2⟩ := loop_killed hf hk hc (n := 0) (Nat.le_refl _) (Or.inr rfl) (by omega) ht hkf
  cases first with
  | granted => exact ⟨fun o h => (by cases h; dsimp only; omega), fun h => by cases h⟩
  | killed => exact ⟨fun o h => (by cases h; dsimp only; omega), fun h => by cases h⟩
  | pending =>
    unfold wait
    dsimp only
    rw [e]
    exact ⟨h1, h2⟩

example : ∃ rs, OnTime ⟨4000, 1000, true⟩ (tEnd ⟨4000, 1000, true⟩ 0) 5 0 rs ∧ KilledFrom 700000 0 rs ∧
    wait ⟨4000, 1000, true⟩ 0 .pending rs = some ⟨.killed, 1000005, 1⟩ ∧ Fits ⟨4000, 1000, true⟩ 0 :=
  ⟨[⟨false, 1000005, .pending⟩, ⟨true, 1000006, .pending⟩], by simp [OnTime, tWait, tEnd, u64], by simp [KilledFrom],
    by decide +kernel, by simp [Fits]⟩

theorem loop_res {c : Cfg} {e : Nat} : ∀ {rs : List Round} {now n : Nat} {o : Out}, loop c e now n rs = some o →
    n ≤ o.rounds ∧ o.rounds - n ≤ rs.length ∧
    (o.res = .granted ↔ ∃ r ∈ rs.take (o.rounds - n), r.meanwhile = .granted) ∧
    (o.res = .killedByOther ↔ ∃ r ∈ rs.take (o.rounds - n), r.meanwhile = .killed) ∧
    (o.res = .killed → c.hasCallback = true ∧ ∃ r, rs[o.rounds - n]? = some r ∧ r.saysKilled = true) ∧
    (c.hasCallback = true → ∀ r ∈ rs.take (o.rounds - n), r.saysKilled = false)
  | [], _, _, _, h => by cases h
  | r :: rs, now, n, o, h => by
    unfold loop at h
    split at h
    · next hk =>
      cases h
      rw [Bool.and_eq_true] at hk
      simp [hk.1, hk.2]
    · next hk =>
      have hns : c.hasCallback = true → r.saysKilled = false := by
        intro hc
        cases hx : r.saysKilled with
        | false => rfl
        | true => exact absurd (by rw [hc, hx]; rfl) hk
      split at h
      · next hm =>
        cases h
        simp [hm]
        exact hns
      · next hm =>
        cases h
        simp [hm]
        exact hns
      · next hm =>
        split at h
        · cases h
          simp [hm]
          exact hns
        · obtain ⟨h1, h2, h3, h4, h5, h6⟩ := loop_res h
          obtain ⟨m, hm'⟩ : ∃ m, o.rounds - n = m + 1 := ⟨o.rounds - n - 1, by omega⟩
          have hm'' : o.rounds - (n + 1) = m := by omega
          rw [hm''] at h2 h3 h4 h5 h6
          rw [hm', List.take_succ_cons]
          refine ⟨by omega, by simpa using h2, ?_, ?_, ?_, ?_⟩
          · rw [h3]; simp [hm]
          · rw [h4]; simp [hm]
          · simpa using h5
          · intro hc
            have := h6 hc
            simpa using ⟨hns hc, this⟩

/-- **C84** The answer says what happened: the lock is reported as granted exactly if it was granted while the thread
waited, a wait ends as killed only if the callback said so or another thread killed it, and once the callback says so
the thread does not sleep again. -/
theorem C84_answer {c : Cfg} {start : Nat} {first : Meanwhile} {rs : List Round} {o : Out}
    (h : wait c start first rs = some o) :
    (o.res = .granted ↔ first = .granted ∨ ∃ r ∈ rs.take o.rounds, r.meanwhile = .granted) ∧
    (o.res = .killedByOther ↔ first = .killed ∨ ∃ r ∈ rs.take o.rounds, r.meanwhile = .killed) ∧
    (o.res = .killed → c.hasCallback = true ∧ ∃ r, rs[o.rounds]? = some r ∧ r.saysKilled = true) ∧
    (c.hasCallback = true → ∀ r ∈ rs.take o.rounds, r.saysKilled = false) := by
  unfold wait at h
  split at h
  · cases h; simp
  · cases h; simp
  · obtain ⟨_, _, h3, h4, h5, h6⟩ := loop_res h
    rw [Nat.sub_zero] at h3 h4 h5 h6
    exact ⟨by rw [h3]; simp, by rw [h4]; simp, h5, h6⟩

/-- **C84** A time that does not fit wraps around: asked to wait for 2^64 - 1 milliseconds (the largest value), a request
is refused without any time having passed, at whatever time it starts. -/
theorem C84_forever_refuted (start : Nat) (h1 : 1000 ≤ start) (h2 : start < 18446744073709551616) (cb : Bool) :
    wait ⟨18446744073709551615, 0, cb⟩ start .pending [⟨false, start, .pending⟩] = some ⟨.timeout, start, 1⟩ ∧
    OnTime ⟨18446744073709551615, 0, cb⟩ (tEnd ⟨18446744073709551615, 0, cb⟩ start) 0 start [⟨false, start, .pending⟩] := by
  have e : tEnd ⟨18446744073709551615, 0, cb⟩ start = start - 1000 := by
    unfold tEnd u64
    dsimp only
    omega
  refine ⟨?_, ?_⟩
  · unfold wait loop
    dsimp only
    rw [e, if_neg (by simp), if_pos (by omega)]
  · unfold OnTime OnTime
    exact ⟨Nat.le_refl _, by dsimp only; omega, trivial⟩

/-- **C84** With a callback but no time between two questions, a thread killed while it sleeps is not asked again before
its whole time is over. -/
theorem C84_unasked_refuted : ∃ rs, OnTime ⟨4000, 0, true⟩ (tEnd ⟨4000, 0, true⟩ 0) 0 0 rs ∧ KilledFrom 1 0 rs ∧
    wait ⟨4000, 0, true⟩ 0 .pending rs = some ⟨.timeout, 4000000, 1⟩ :=
  ⟨[⟨false, 4000000, .pending⟩], by simp [OnTime, tWait, tEnd, u64], by simp [KilledFrom], by decide +kernel⟩

end Verif.LockWait
