import Verif.Count.Step

/-! C75: reading a partitioned counter while other threads add to it, start and end. -/
namespace Verif.Count

/-! ### Histories -/

/-- What was done at any point of a history. -/
theorem run_at {s : State} {es : List Ev} (h : Run s es) {post pre : List Ev} {e : Ev} (he : es = post ++ e :: pre) :
    ∃ s0 t a s1, Run s0 pre ∧ Legal s0 t a ∧ act s0 t a = .done s1 (some e) := by
  induction h generalizing post with
  | init =>
    cases post <;> cases he
  | @step s0 s1 es t a e' hr hg ha ih =>
    cases e' with
    | none => exact ih he
    | some e' =>
      cases post with
      | nil =>
        cases he
        exact ⟨s0, t, a, s1, hr, hg, ha⟩
      | cons x post =>
        cases he
        exact ih rfl

/-- Only the end of a read tells a value. -/
theorem told_by {s s' : State} {t u : Tid} {a : Act} {c v : Nat} (h : act s u a = .done s' (some (.told t c v))) : u = t ∧ s.pc t = .reading c v [] := by
  cases a with
  | create d => unfold act at h; dsimp only at h; split at h <;> cases h
  | destroy d => unfold act at h; dsimp only at h; repeat' (split at h) <;> try cases h
  | inc d n => unfold act at h; dsimp only at h; split at h <;> cases h
  | read d => unfold act at h; dsimp only at h; split at h <;> cases h
  | exit => unfold act at h; dsimp only at h; repeat' (split at h) <;> try cases h
  | go p =>
    have h : goOn s u p = _ := h
    unfold goOn at h
    repeat' (split at h) <;> try cases h
    rename_i hp
    exact ⟨rfl, hp⟩

theorem before_mid {t : Tid} {c : Ctr} {old : List Ev} : ∀ {mid : List Ev}, (∀ d, .asked t d ∉ mid) → before t (mid ++ .asked t c :: old) = old
  | [], _ => if_pos rfl
  | e :: mid, h => by
    rw [List.cons_append, before_cons (fun d he => h d (by rw [he]; exact List.mem_cons_self))]
    exact before_mid (fun d hm => h d (List.mem_cons_of_mem _ hm))

theorem told_inv {s : State} {post pre : List Ev} {t c v : Nat} (h : Run s (post ++ .told t c v :: pre)) :
    ∃ s0, Inv s0 pre ∧ s0.pc t = .reading c v [] := by
  obtain ⟨s0, u, a, s1, hr, _, ha⟩ := run_at h rfl
  exact ⟨s0, run_inv hr, (told_by ha).2⟩

theorem total_mono {c : Ctr} {old : List Ev} : ∀ {mid : List Ev}, .create c ∉ mid → total c old ≤ total c (mid ++ old)
  | [], _ => Nat.le_refl _
  | e :: mid, h => by
    have ih : total c old ≤ total c (mid ++ old) := total_mono (fun hm => h (List.mem_cons_of_mem _ hm))
    cases e with
    | create d =>
      rw [List.cons_append]
      show _ ≤ if d = c then 0 else total c (mid ++ old)
      rw [if_neg]
      · exact ih
      · rintro rfl
        exact h List.mem_cons_self
    | add d n =>
      rw [List.cons_append]
      show _ ≤ if d = c then total c (mid ++ old) + n else total c (mid ++ old)
      split <;> omega
    | destroy d => exact ih
    | asked u d => exact ih
    | told u d v => exact ih

/-! ### Values have 64 bits -/

structure Small (s : State) : Prop where
  dead : ∀ c C, s.ctrs c = some C → C.dead < W
  acc : ∀ t c acc l, s.pc t = .reading c acc l → acc < W

theorem W_pos : 0 < W := Nat.two_pow_pos 64

theorem exitParts_small : ∀ {l : List (Option PartAddr)} {ctrs ctrs' : Ctr → Option Counter} {parts parts' : PartAddr → Option Part},
    exitParts l ctrs parts = some (ctrs', parts') → (∀ c C, ctrs c = some C → C.dead < W) → ∀ c C, ctrs' c = some C → C.dead < W
  | [], _, _, _, _, h, hd => by
    cases h
    exact hd
  | none :: l, _, _, _, _, h, hd => exitParts_small (l := l) h hd
  | some p :: l, ctrs, _, parts, _, h, hd => by
    unfold exitParts at h
    rcases hp : parts p with _ | lc
    · rw [hp] at h
      cases h
    · rcases ho : ctrs lc.owner with _ | o
      · simp only [hp, ho, Option.bind_eq_bind, Option.bind_some, Option.bind_none] at h
        cases h
      · simp only [hp, ho, Option.bind_eq_bind, Option.bind_some] at h
        split at h
        · refine exitParts_small h ?_
          intro c C hc
          by_cases e : c = lc.owner
          · subst e
            rw [put_same] at hc
            cases hc
            exact Nat.mod_lt _ W_pos
          · rw [put_ne _ _ e] at hc
            exact hd c C hc
        · cases h

theorem put_cases {α : Type} {f : Nat → α} {i j : Nat} {x y : α} (h : put f i x j = y) : (j = i ∧ y = x) ∨ (j ≠ i ∧ f j = y) := by
  by_cases e : j = i
  · subst e
    rw [put_same] at h
    exact .inl ⟨rfl, h.symm⟩
  · rw [put_ne _ _ e] at h
    exact .inr ⟨e, h⟩

theorem small_step {s s' : State} {t : Tid} {a : Act} {e : Option Ev} (h : Small s) (ha : act s t a = .done s' e) : Small s' := by
  have acc : ∀ x, (∀ c acc l, x = .reading c acc l → acc < W) → ∀ u c acc l, put s.pc t x u = .reading c acc l → acc < W := by
    intro x hx u c acc l hu
    rcases put_cases hu with ⟨_, e⟩ | ⟨_, e⟩
    · exact hx c acc l e.symm
    · exact h.acc u c acc l e
  cases a with
  | create d =>
    unfold act at ha
    dsimp only at ha
    split at ha
    · cases ha
      refine ⟨?_, h.acc⟩
      intro c C hc
      rcases put_cases hc with ⟨_, e⟩ | ⟨_, e⟩
      · cases e
        exact W_pos
      · exact h.dead c C e
    · cases ha
  | destroy d =>
    unfold act at ha
    dsimp only at ha
    repeat' (split at ha)
    all_goals try cases ha
    refine ⟨?_, h.acc⟩
    intro c C hc
    rcases put_cases hc with ⟨_, e⟩ | ⟨_, e⟩
    · cases e
    · exact h.dead c C e
  | inc d n =>
    unfold act at ha
    dsimp only at ha
    split at ha
    · cases ha
      exact ⟨h.dead, acc _ (by intro _ _ _ e; cases e)⟩
    · cases ha
  | read d =>
    unfold act at ha
    dsimp only at ha
    split at ha
    · cases ha
      exact ⟨h.dead, acc _ (by intro _ _ _ e; cases e)⟩
    · cases ha
  | exit =>
    unfold act at ha
    dsimp only at ha
    repeat' (split at ha)
    all_goals try cases ha
    rename_i hx
    exact ⟨exitParts_small hx h.dead, h.acc⟩
  | go p =>
    have ha : goOn s t p = _ := ha
    unfold goOn at ha
    split at ha
    · cases ha
    · repeat' (split at ha)
      all_goals try cases ha
      all_goals exact ⟨h.dead, acc _ (by intro _ _ _ e; cases e)⟩
    · split at ha
      · split at ha
        · cases ha
        · rename_i C hC
          split at ha
          · cases ha
          · cases ha
            refine ⟨?_, acc _ (by intro _ _ _ e; cases e)⟩
            intro c D hc
            rcases put_cases hc with ⟨_, e⟩ | ⟨_, e⟩
            · cases e
              exact h.dead _ C hC
            · exact h.dead c D e
      · cases ha
    · split at ha
      all_goals try cases ha
      exact ⟨h.dead, acc _ (by intro _ _ _ e; cases e)⟩
    · split at ha
      all_goals try cases ha
      exact ⟨h.dead, acc _ (by intro _ _ _ e; cases e)⟩
    · split at ha
      · split at ha
        · cases ha
        · rename_i C hC
          cases ha
          refine ⟨h.dead, acc _ ?_⟩
          intro c a l e
          cases e
          exact h.dead _ C hC
      · cases ha
    · split at ha
      · cases ha
        exact ⟨h.dead, acc _ (by intro _ _ _ e; cases e)⟩
      · split at ha
        all_goals try cases ha
        refine ⟨h.dead, acc _ ?_⟩
        intro c a l e
        cases e
        exact Nat.mod_lt _ W_pos

theorem run_small {s : State} {es : List Ev} (h : Run s es) : Small s := by
  induction h with
  | init => exact ⟨fun c C e => (by cases e), fun t c acc l e => (by cases e)⟩
  | step _ _ ha ih => exact small_step ih ha

theorem told_small {s : State} {post pre : List Ev} {t c v : Nat} (h : Run s (post ++ .told t c v :: pre)) : v < W := by
  obtain ⟨s0, u, a, s1, hr, _, ha⟩ := run_at h rfl
  exact (run_small hr).acc t c v [] (told_by ha).2

/-! ### A read comes to its end -/

/-- `n` more steps of one thread. -/
def alone (t : Tid) : Nat → State → List Ev → Option (State × List Ev)
  | 0, s, es => some (s, es)
  | n + 1, s, es =>
    match act s t (.go 0) with
    | .done s' e => alone t n s' (note e es)
    | _ => none

theorem reading_ends {s : State} {es : List Ev} {t c : Nat} : ∀ {l : List PartAddr} {acc : Nat} {s : State}, Run s es → s.pc t = .reading c acc l →
    ∃ s' v, alone t (l.length + 1) s es = some (s', .told t c v :: es)
  | [], acc, s, _, hp => by
    refine ⟨{ s with lock := none, pc := put s.pc t .idle }, acc, ?_⟩
    unfold alone act goOn
    simp only [hp]
    rfl
  | q :: l, acc, s, h, hp => by
    have hi := run_inv h
    obtain ⟨C, hC⟩ := Option.ne_none_iff_exists'.1 (hi.str.live t c (by rw [hp]; rfl))
    obtain ⟨P, h1, _⟩ := hi.str.part c C hC q ((hi.str.rest t c acc (q :: l) C hp hC).subset List.mem_cons_self)
    have ha : act s t (.go 0) = .done { s with pc := put s.pc t (.reading c ((acc + P.sum) % W) l) } none := by
      unfold act goOn
      simp only [hp, h1]
    have hr := Run.step h (t := t) (a := .go 0) trivial ha
    obtain ⟨s', v, e⟩ := reading_ends (l := l) (acc := (acc + P.sum) % W) (s := { s with pc := put s.pc t (.reading c ((acc + P.sum) % W) l) }) hr (put_same _ _ _)
    refine ⟨s', v, ?_⟩
    show alone t (l.length + 1 + 1) s es = _
    unfold alone
    simp only [ha]
    exact e

/-! ### The properties -/

/-- No step of a correct program touches freed memory, stores outside an array or fails an assertion. -/
theorem C75_no_crash {s : State} {es : List Ev} (h : Run s es) (t : Tid) (a : Act) (hg : Legal s t a) : act s t a ≠ .crash := by
  intro e
  have := act_ok (run_inv h) t a hg
  rw [e] at this
  exact this

/-- A value is told to a thread only when it asked for it, and has asked for nothing since. -/
theorem C75_told_was_asked {s : State} {post pre : List Ev} {t c v : Nat} (h : Run s (post ++ .told t c v :: pre)) :
    ∃ mid old, pre = mid ++ .asked t c :: old ∧ ∀ d, .asked t d ∉ mid := by
  obtain ⟨s0, hi, hp⟩ := told_inv h
  obtain ⟨mid, h1, h2⟩ := hi.sums.asked t c (.inr ⟨v, [], hp⟩)
  exact ⟨mid, _, h1, h2⟩

/-- As long as what was added stays below 2^64: a read gives at least what had been added when it was called, and at most what has been
added when it returns.  In between any number of threads add, start and end. -/
theorem C75_read_between {s : State} {post mid old : List Ev} {t c v : Nat} (h : Run s (post ++ .told t c v :: (mid ++ .asked t c :: old)))
    (hm : ∀ d, .asked t d ∉ mid) (hw : total c (mid ++ .asked t c :: old) < W) : total c old ≤ v ∧ v ≤ total c (mid ++ .asked t c :: old) := by
  obtain ⟨s0, hi, hp⟩ := told_inv h
  have := hi.sums.between t c v [] hp hw
  rw [before_mid hm] at this
  exact this

/-- When nothing is added while the read goes on, it gives what was added, modulo 2^64: this holds of counters that are decremented too
(by adding 2^64 less the amount). -/
theorem C75_read_quiet {s : State} {post mid old : List Ev} {t c v : Nat} (h : Run s (post ++ .told t c v :: (mid ++ .asked t c :: old)))
    (hm : ∀ d, .asked t d ∉ mid) (hq : total c (mid ++ .asked t c :: old) = total c old) : v = total c old % W := by
  obtain ⟨s0, hi, hp⟩ := told_inv h
  have := hi.sums.still t c v [] hp (by rw [before_mid hm]; exact hq)
  rw [hq] at this
  rw [← this]
  exact (Nat.mod_eq_of_lt (told_small h)).symm

/-- A read that is called when another has returned gives no less. -/
theorem C75_reads_grow {s : State} {post mid gap pre : List Ev} {t u c v w : Nat}
    (h : Run s (post ++ .told u c w :: (mid ++ .asked u c :: (gap ++ .told t c v :: pre)))) (hm : ∀ d, .asked u d ∉ mid)
    (hc : .create c ∉ mid) (hc' : .create c ∉ gap) (hw : total c (mid ++ .asked u c :: (gap ++ .told t c v :: pre)) < W) : v ≤ w := by
  have h1 := (C75_read_between h hm hw).1
  have h2 : total c (gap ++ .told t c v :: pre) ≥ total c pre := total_mono (old := .told t c v :: pre) hc'
  have h3 : total c (mid ++ .asked u c :: (gap ++ .told t c v :: pre)) ≥ total c (gap ++ .told t c v :: pre) :=
    total_mono (old := .asked u c :: (gap ++ .told t c v :: pre)) hc
  have hr : Run s ((post ++ .told u c w :: (mid ++ .asked u c :: gap)) ++ .told t c v :: pre) := by
    simpa only [List.append_assoc, List.cons_append] using h
  obtain ⟨mid', old', e1, e2⟩ := C75_told_was_asked hr
  subst e1
  have h4 := (C75_read_between hr e2 (by omega)).2
  omega

/-- A thread that waits for nothing but its own steps: a reader that has the lock comes to its end, in as many steps as there are parts and one
more, whatever the other threads are in the middle of. -/
theorem C75_read_ends {s : State} {es : List Ev} (h : Run s es) {t c acc : Nat} {l : List PartAddr} (hp : s.pc t = .reading c acc l) :
    ∃ s' v, alone t (l.length + 1) s es = some (s', .told t c v :: es) := reading_ends (s := s) h hp

/-- Adding waits for the lock only to make a part: never in the steps before and after. -/
theorem C75_add_waits_once {s : State} {es : List Ev} (h : Run s es) {t c n : Nat} (p : PartAddr)
    (hp : s.pc t = .fetch c n ∨ (∃ q, s.pc t = .load c n q) ∨ ∃ q v, s.pc t = .store c n q v) : ∃ s' e, act s t (.go p) = .done s' e := by
  have hi := act_ok (run_inv h) t (.go p) trivial
  rcases ha : act s t (.go p) with ⟨s', e⟩ | _ | _
  · exact ⟨s', e, rfl⟩
  · exfalso
    have ha : goOn s t p = .wait := ha
    unfold goOn at ha
    rcases hp with hp | ⟨q, hp⟩ | ⟨q, v, hp⟩
    · simp only [hp] at ha
      repeat' (split at ha)
      all_goals cases ha
    · simp only [hp] at ha
      split at ha <;> cases ha
    · simp only [hp] at ha
      split at ha <;> cases ha
  · rw [ha] at hi
    exact hi.elim

/-! ### Runs -/

/-- `Legal` when only the first eight threads do anything. -/
def legalB (s : State) : Act → Bool
  | .destroy c => (s.ctrs c).isSome && (List.range 8).all fun u => (s.pc u).about != some c
  | .inc c _ => (s.ctrs c).isSome
  | .read c => (s.ctrs c).isSome
  | _ => true

/-- Runs of eight threads, computed. -/
def runB (s : State) (es : List Ev) : List (Tid × Act) → Option (State × List Ev)
  | [] => some (s, es)
  | (t, a) :: l =>
    if t < 8 ∧ legalB s a = true then
      match act s t a with
      | .done s' e => runB s' (note e es) l
      | _ => none
    else none

theorem act_pc {s s' : State} {t u : Tid} {a : Act} {e : Option Ev} (h : act s t a = .done s' e) (hu : u ≠ t) : s'.pc u = s.pc u := by
  cases a with
  | go p =>
    have h : goOn s t p = _ := h
    unfold goOn at h
    repeat' (split at h)
    all_goals try cases h
    all_goals exact put_ne _ _ hu
  | _ =>
    unfold act at h
    dsimp only at h
    repeat' (split at h)
    all_goals try cases h
    all_goals first | rfl | exact put_ne _ _ hu

theorem run_of : ∀ {l : List (Tid × Act)} {s s' : State} {es es' : List Ev}, Run s es → (∀ u ≥ 8, s.pc u = .idle) → runB s es l = some (s', es') → Run s' es'
  | [], s, s', es, es', h, _, hr => by
    cases hr
    exact h
  | (t, a) :: l, s, s', es, es', h, hq, hr => by
    have hr : (if t < 8 ∧ legalB s a = true then
      match act s t a with
      | .done s' e => runB s' (note e es) l
      | _ => none
    else none) = some (s', es') := hr
    split at hr
    · rename_i hc
      split at hr
      · rename_i s1 e ha
        refine run_of (Run.step h ?_ ha) ?_ hr
        · have hg := hc.2
          cases a with
          | destroy c =>
            have hg := (Bool.and_eq_true _ _).mp hg
            refine ⟨?_, ?_⟩
            · intro e
              rw [e] at hg
              cases hg.1
            · intro u e
              by_cases hu : u < 8
              · have := List.all_eq_true.1 hg.2 u (List.mem_range.2 hu)
                rw [e] at this
                exact absurd this (by simp)
              · rw [hq u (Nat.not_lt.1 hu)] at e
                cases e
          | inc c n =>
            intro e
            have hg : (s.ctrs c).isSome = true := hg
            rw [e] at hg
            cases hg
          | read c =>
            intro e
            have hg : (s.ctrs c).isSome = true := hg
            rw [e] at hg
            cases hg
          | _ => trivial
        · intro u hu
          rw [act_pc ha (Nat.ne_of_gt (Nat.lt_of_lt_of_le hc.1 hu))]
          exact hq u hu
      · cases hr
    · cases hr

/-- Script, and what it leaves. -/
theorem run_script (l : List (Tid × Act)) (es : List Ev) (h : (runB start [] l).map Prod.snd = some es) : ∃ s, Run s es := by
  obtain ⟨⟨s, es'⟩, h1, h2⟩ := Option.map_eq_some_iff.1 h
  cases h2
  exact ⟨s, run_of Run.init (fun _ _ => rfl) h1⟩

def g (t : Tid) : Tid × Act := (t, .go 0)

/-- Thread 1 adds 5, thread 2 reads: while it does thread 1 adds 7 and thread 3, for the first time, 2.  Thread 3 has to wait for the reader to
make its part.  The reader gets 12: more than the 5, less than the 14 there would be. -/
def racing : List (Tid × Act) :=
  [(0, .create 9), (1, .inc 9 5), g 1, g 1, g 1, g 1, (2, .read 9), g 2, (1, .inc 9 7), (3, .inc 9 2), g 3, g 1, g 1, g 1, g 2, g 2,
   (3, .go 1), g 3, g 3, (2, .read 9), g 2, g 2, g 2, g 2]

def racingHist : List Ev := [.told 2 9 14, .asked 2 9, .add 9 2, .told 2 9 12, .add 9 7, .asked 2 9, .add 9 5, .create 9]

theorem racing_runs : ∃ s, Run s racingHist := run_script racing _ (by decide +kernel)

example : 5 ≤ 12 ∧ 12 ≤ 12 := by
  obtain ⟨s, h⟩ := racing_runs
  exact C75_read_between (post := [.told 2 9 14, .asked 2 9, .add 9 2]) (mid := [.add 9 7]) (old := [.add 9 5, .create 9]) (t := 2) (c := 9) h
    (by intro d e; cases e with | tail _ e => cases e) (by decide +kernel)

example : 12 ≤ 14 := by
  obtain ⟨s, h⟩ := racing_runs
  exact C75_reads_grow (post := []) (mid := []) (gap := [.add 9 2]) (pre := [.add 9 7, .asked 2 9, .add 9 5, .create 9]) (t := 2) (u := 2) (c := 9) h
    (by intro d e; cases e) (by intro e; cases e) (by intro e; cases e with | tail _ e => cases e) (by decide +kernel)

/-- A thread ends and its part is kept; the counter goes away and another gets its number and its place: it starts from zero, and a thread
that has added to the old one, and has not ended, finds nothing of it. -/
def reuse : List (Tid × Act) :=
  [(0, .create 9), (1, .inc 9 5), g 1, g 1, g 1, g 1, (2, .inc 9 6), (2, .go 1), (2, .go 1), g 2, g 2, (1, .exit), (3, .read 9), g 3, g 3, g 3,
   (3, .destroy 9), (3, .create 9), (2, .inc 9 1), (2, .go 1), (2, .go 1), g 2, g 2, (3, .read 9), g 3, g 3, g 3]

def reuseHist : List Ev := [.told 3 9 1, .asked 3 9, .add 9 1, .create 9, .destroy 9, .told 3 9 11, .asked 3 9, .add 9 6, .add 9 5, .create 9]

theorem reuse_runs : ∃ s, Run s reuseHist := run_script reuse _ (by decide +kernel)

example : 1 = total 9 [.add 9 1, .create 9, .destroy 9, .told 3 9 11, .asked 3 9, .add 9 6, .add 9 5, .create 9] % W := by
  obtain ⟨s, h⟩ := reuse_runs
  exact C75_read_quiet (post := []) (mid := []) (t := 3) (c := 9) h (by intro d e; cases e) rfl

/-- Thread 1 adds 5 and then thread 2 takes 5 away, while thread 3 reads. -/
def decrement : List (Tid × Act) :=
  [(0, .create 9), (2, .inc 9 0), g 2, g 2, g 2, g 2, (1, .inc 9 0), (1, .go 1), (1, .go 1), g 1, g 1, (3, .read 9), g 3, g 3,
   (1, .inc 9 5), g 1, g 1, g 1, (2, .inc 9 (W - 5)), g 2, g 2, g 2, g 3, g 3]

/-- It is not so of counters that are decremented, as those of the sizes in the cache are, ft/cachetable/cachetable.cc:3776-3783: the value was 0,
then 5, then 0, and what is read, ft/cachetable/cachetable.cc:4387-4390, is 2^64 - 5. -/
theorem C75_decrement_refuted : ∃ s mid old, Run s (.told 3 9 (W - 5) :: (mid ++ .asked 3 9 :: old)) ∧ mid = [.add 9 (W - 5), .add 9 5] ∧
    total 9 old = 0 ∧ total 9 (.add 9 5 :: .asked 3 9 :: old) % W = 5 ∧ total 9 (mid ++ .asked 3 9 :: old) % W = 0 := by
  obtain ⟨s, h⟩ := run_script decrement [.told 3 9 (W - 5), .add 9 (W - 5), .add 9 5, .asked 3 9, .add 9 0, .add 9 0, .create 9] (by decide +kernel)
  exact ⟨s, _, [.add 9 0, .add 9 0, .create 9], h, rfl, by decide +kernel, by decide +kernel, by decide +kernel⟩

theorem run_where (l : List (Tid × Act)) (t : Tid) (x : Pc) (h : (runB start [] l).map (fun r => r.1.pc t) = some x) : ∃ s es, Run s es ∧ s.pc t = x := by
  obtain ⟨⟨s, es⟩, h1, h2⟩ := Option.map_eq_some_iff.1 h
  exact ⟨s, es, run_of Run.init (fun _ _ => rfl) h1, h2⟩

/-- In the race above: the reader has the lock and a part to read, thread 1 is about to store. -/
example : ∃ s es, Run s es ∧ s.pc 2 = .reading 9 0 [0] ∧ (∃ s' v, alone 2 2 s es = some (s', .told 2 9 v :: es)) := by
  obtain ⟨s, es, h, hp⟩ := run_where (racing.take 13) 2 (.reading 9 0 [0]) (by decide +kernel)
  exact ⟨s, es, h, hp, C75_read_ends h hp⟩

example : ∃ s es, Run s es ∧ s.pc 1 = .store 9 7 0 5 ∧ (∃ s' e, act s 1 (.go 3) = .done s' e) ∧ act s 1 (.go 3) ≠ .crash := by
  obtain ⟨s, es, h, hp⟩ := run_where (racing.take 13) 1 (.store 9 7 0 5) (by decide +kernel)
  exact ⟨s, es, h, hp, C75_add_waits_once h 3 (.inr (.inr ⟨_, _, hp⟩)), C75_no_crash h 1 (.go 3) trivial⟩

end Verif.Count
