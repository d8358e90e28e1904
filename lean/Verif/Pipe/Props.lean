import Verif.Pipe.Lemmas

/-! # C81: the queue between the stages of the bulk loader -/

namespace Verif.Pipe

/-- Whatever threads use the queue, and in whatever schedule: the items taken, in the order of taking, followed
by those in the queue, are the items handed over, in the order of handing over. -/
theorem C81_order (limit n : Nat) (evs : List Ev) (q : Q) (as : List Ans)
    (h : run (create limit n) evs = some (some (q, as))) : gets as ++ q.items.map (·.1) = gives evs := by
  obtain ⟨h1, h2, h3, _, _⟩ := run_inv evs (create_inv limit n) h
  have e1 : q.received = gets as := h2
  have e2 : q.sent = gives evs := h3
  rw [← e1, ← e2, h1.fifo]

theorem take_eof {q q' : Q} {t who : Nat} (h : take q t who = some (some (q', .eof))) :
    q.items = [] ∧ q.eof = true ∧ q'.items = [] ∧ q'.eof = true := by
  unfold take at h
  split at h
  · next hi =>
    split at h
    · next he => cases h; exact ⟨hi, he, hi, he⟩
    · cases h
  · split at h <;> cases h

theorem waitRoom_not_eof (q : Q) (t : Nat) : (waitRoom q t).2 ≠ .eof := by
  unfold waitRoom; split <;> exact Ans.noConfusion

theorem act_answers_eof {q q' : Q} {e : Ev} (h : act q e = some (some (q', .eof))) :
    q.items = [] ∧ q.eof = true ∧ q'.items = [] ∧ q'.eof = true := by
  cases e with
  | enq t i w who =>
    simp only [act] at h
    split at h
    · split at h
      · cases h
      · split at h
        · cases h
        · simp only [Option.some.injEq] at h
          exact absurd (congrArg Prod.snd h) (waitRoom_not_eof _ _)
    · cases h
  | deq t who =>
    simp only [act] at h
    split at h
    · exact take_eof h
    · cases h
  | eof t who =>
    simp only [act] at h
    split at h
    · split at h
      · cases h
      · split at h <;> cases h
    · cases h
  | resume t who =>
    simp only [act] at h
    split at h
    · simp only [Option.some.injEq] at h
      exact absurd (congrArg Prod.snd h) (waitRoom_not_eof _ _)
    · exact take_eof h
    · cases h
  | spurious t =>
    simp only [act] at h
    split at h
    · split at h <;> cases h
    · cases h
  | destroy =>
    simp only [act] at h
    split at h
    · cases h
    · split at h <;> cases h

/-- A thread is told that there are no more items only when the end was told and every item handed over was taken
before; and no item is handed over or taken after that. -/
theorem C81_eof (limit n : Nat) (evs : List Ev) (q : Q) (as : List Ans)
    (h : run (create limit n) evs = some (some (q, as))) (e : Ev) (q' : Q)
    (ha : act q e = some (some (q', .eof))) :
    gets as = gives evs ∧ (∃ t who, Ev.eof t who ∈ evs) ∧
    ∀ more r bs, run q' more = some (some (r, bs)) → gives more = [] ∧ gets bs = [] := by
  obtain ⟨i1, i2, i3, i4⟩ := act_answers_eof ha
  have ho := C81_order limit n evs q as h
  rw [i1] at ho
  have hi := (run_inv evs (create_inv limit n) h).1
  have hi' := (act_inv hi ha).1
  refine ⟨by simpa using ho, ?_, ?_⟩
  · have gen : ∀ (es : List Ev) (a b : Q) (cs : List Ans), run a es = some (some (b, cs)) → a.eof = false →
        b.eof = true → ∃ t who, Ev.eof t who ∈ es := by
      intro es
      induction es with
      | nil => intro a b cs hr e1 e2; simp only [run] at hr; cases hr; rw [e1] at e2; cases e2
      | cons x xs ih =>
        intro a b cs hr0 e1 e2
        obtain ⟨a', y, ds, hx, hr, _⟩ := run_cons hr0
        have hs := act_eof hx
        cases x with
        | eof t who => exact ⟨t, who, List.mem_cons_self ..⟩
        | enq t i w who =>
          obtain ⟨t', w', m⟩ := ih a' b ds hr (hs.trans e1) e2
          exact ⟨t', w', List.mem_cons_of_mem _ m⟩
        | deq t who =>
          obtain ⟨t', w', m⟩ := ih a' b ds hr (hs.trans e1) e2
          exact ⟨t', w', List.mem_cons_of_mem _ m⟩
        | resume t who =>
          obtain ⟨t', w', m⟩ := ih a' b ds hr (hs.trans e1) e2
          exact ⟨t', w', List.mem_cons_of_mem _ m⟩
        | spurious t =>
          obtain ⟨t', w', m⟩ := ih a' b ds hr (hs.trans e1) e2
          exact ⟨t', w', List.mem_cons_of_mem _ m⟩
        | destroy =>
          obtain ⟨t', w', m⟩ := ih a' b ds hr (hs.trans e1) e2
          exact ⟨t', w', List.mem_cons_of_mem _ m⟩
    exact gen evs _ q as h rfl i2
  · intro more r bs hr
    obtain ⟨r1, r2, r3, _, r5⟩ := run_inv more hi' hr
    have hg := (r5 i4).1
    refine ⟨hg, ?_⟩
    have f1 := hi'.fifo
    have f2 := r1.fifo
    rw [i3] at f1
    rw [hg] at r3
    rw [r3, f1, r2] at f2
    simp only [List.map_nil, List.append_nil, List.append_assoc] at f2
    have := List.self_eq_append_right.mp f2
    exact (List.append_eq_nil_iff.mp this).1

/-- The weights told are right: handing over returns only when the items in the queue weigh no more than the
limit, and tells what they weigh; taking returns the oldest item, its weight, and what is left weighs. -/
theorem C81_weights (limit n : Nat) (evs : List Ev) (q : Q) (as : List Ans)
    (h : run (create limit n) evs = some (some (q, as))) (e : Ev) (q' : Q) :
    (∀ total, act q e = some (some (q', .sent total)) → total = load q'.items ∧ total ≤ limit) ∧
    (∀ item w total, act q e = some (some (q', .got item w total)) →
      q.items = (item, w) :: q'.items ∧ total = load q'.items) := by
  obtain ⟨hi, _, _, hl, _⟩ := run_inv evs (create_inv limit n) h
  have hl' : q.limit = limit := hl
  have room : ∀ (r : Q) (t total : Nat), Inv r → r.limit = limit → waitRoom r t = (q', .sent total) →
      total = load q'.items ∧ total ≤ limit := by
    intro r t total ri rl hw
    unfold waitRoom at hw
    split at hw
    · cases hw
    · next c =>
      cases hw
      exact ⟨ri.weight, by omega⟩
  have noGot : ∀ (r : Q) (t item w total : Nat), waitRoom r t ≠ (q', .got item w total) := by
    intro r t item w total hw
    unfold waitRoom at hw
    split at hw <;> cases hw
  have noSent : ∀ t who total, take q t who ≠ some (some (q', .sent total)) := by
    intro t who total x
    unfold take at x
    split at x
    · split at x <;> cases x
    · split at x <;> cases x
  have got : ∀ t who item w total, take q t who = some (some (q', .got item w total)) →
      q.items = (item, w) :: q'.items ∧ total = load q'.items := by
    intro t who item w total x
    have hi' := (take_inv hi x).1
    unfold take at x
    split at x
    · split at x <;> cases x
    · next it w' rest hit =>
      split at x
      · cases x
      · cases x
        exact ⟨hit, hi'.weight⟩
  cases e with
  | enq t i w who =>
    constructor
    · intro total ha
      have hinv := act_inv hi ha
      simp only [act] at ha
      split at ha
      · split at ha
        · cases ha
        · split at ha
          · cases ha
          · simp only [Option.some.injEq] at ha
            unfold waitRoom at ha
            split at ha
            · cases ha
            · next c =>
              cases ha
              refine ⟨hinv.1.weight, ?_⟩
              have c' : ¬ q.limit < q.weight + w := c
              show q.weight + w ≤ limit
              omega
      · cases ha
    · intro item w' total ha
      simp only [act] at ha
      split at ha
      · split at ha
        · cases ha
        · split at ha
          · cases ha
          · simp only [Option.some.injEq] at ha
            exact absurd ha (noGot _ _ _ _ _)
      · cases ha
  | deq t who =>
    constructor
    · intro total ha
      simp only [act] at ha
      split at ha
      · exact absurd ha (noSent _ _ _)
      · cases ha
    · intro item w total ha
      simp only [act] at ha
      split at ha
      · exact got _ _ _ _ _ ha
      · cases ha
  | eof t who =>
    constructor
    · intro total ha
      simp only [act] at ha
      split at ha
      · split at ha
        · cases ha
        · split at ha <;> cases ha
      · cases ha
    · intro item w total ha
      simp only [act] at ha
      split at ha
      · split at ha
        · cases ha
        · split at ha <;> cases ha
      · cases ha
  | resume t who =>
    constructor
    · intro total ha
      simp only [act] at ha
      split at ha
      · simp only [Option.some.injEq] at ha
        exact room _ _ _ hi hl' ha
      · exact absurd ha (noSent _ _ _)
      · cases ha
    · intro item w total ha
      simp only [act] at ha
      split at ha
      · simp only [Option.some.injEq] at ha
        exact absurd ha (noGot _ _ _ _ _)
      · exact got _ _ _ _ _ ha
      · cases ha
  | spurious t =>
    constructor
    · intro total ha
      simp only [act] at ha
      split at ha
      · split at ha <;> cases ha
      · cases ha
    · intro item w total ha
      simp only [act] at ha
      split at ha
      · split at ha <;> cases ha
      · cases ha
  | destroy =>
    constructor
    · intro total ha
      simp only [act] at ha
      split at ha
      · cases ha
      · split at ha <;> cases ha
    · intro item w total ha
      simp only [act] at ha
      split at ha
      · cases ha
      · split at ha <;> cases ha

/-- With one thread on each side, the items in the queue but the newest never weigh more than the limit, and
none waits beyond the limit while the thread that hands over is outside the queue. -/
theorem C81_room (limit : Nat) (evs : List Ev) (hp : ∀ e, e ∈ evs → e.paired = true) (q : Q) (as : List Ans)
    (h : run (create limit 2) evs = some (some (q, as))) :
    load q.items.dropLast ≤ limit ∧ (q.ts[0]? = some .idle → load q.items ≤ limit) := by
  have hq := run_pair evs (create_pair limit) hp h
  have hl : q.limit = limit := (run_inv evs (create_inv limit 2) h).2.2.2.1
  obtain ⟨a, b, hts, ha, _⟩ := hq.shape
  refine ⟨hl ▸ hq.room, ?_⟩
  intro hid
  have : a = .idle := by rw [hts] at hid; simpa using hid
  subst this
  rcases ha with ⟨_, l⟩ | ⟨x, _⟩ | x
  · exact hl ▸ l
  · cases x
  · cases x

/-- With one thread on each side, no wake-up is lost: the thread that takes sleeps only while the queue is empty
and the end is not told; the thread that hands over sleeps only while the items weigh more than the limit; and
they never sleep at the same time. -/
theorem C81_awake (limit : Nat) (evs : List Ev) (hp : ∀ e, e ∈ evs → e.paired = true) (q : Q) (as : List Ans)
    (h : run (create limit 2) evs = some (some (q, as))) :
    (∀ b, q.ts[1]? = some b → b.asleep = true → q.items = [] ∧ q.eof = false) ∧
    (∀ a, q.ts[0]? = some a → a.asleep = true → limit < load q.items) ∧
    ¬ (∀ t, t ∈ q.ts → t.asleep = true) := by
  have hq := run_pair evs (create_pair limit) hp h
  have hl : q.limit = limit := (run_inv evs (create_inv limit 2) h).2.2.2.1
  obtain ⟨a, b, hts, ha, hb⟩ := hq.shape
  have P1 : ∀ x, q.ts[1]? = some x → x.asleep = true → q.items = [] ∧ q.eof = false := by
    intro x hx hs
    rw [hts] at hx
    simp only [List.getElem?_cons_succ, List.getElem?_cons_zero, Option.some.injEq] at hx
    subst hx
    rcases hb with y | ⟨_, y⟩ | y
    · subst y; cases hs
    · exact y
    · subst y; cases hs
  have P2 : ∀ x, q.ts[0]? = some x → x.asleep = true → limit < load q.items := by
    intro x hx hs
    rw [hts] at hx
    simp only [List.getElem?_cons_zero, Option.some.injEq] at hx
    subst hx
    rcases ha with ⟨y, _⟩ | ⟨_, y⟩ | y
    · subst y; cases hs
    · exact hl ▸ y
    · subst y; cases hs
  refine ⟨P1, P2, ?_⟩
  intro all
  have s1 := P1 b (by rw [hts]; rfl) (all b (by rw [hts]; simp))
  have s2 := P2 a (by rw [hts]; rfl) (all a (by rw [hts]; simp))
  rw [s1.1] at s2
  exact absurd s2 (Nat.not_lt_zero _)

/-- A thread that asks for an item while there is one, or after the end was told, or that looks again then, is
answered without sleeping. -/
theorem C81_answered (q : Q) (t : Nat) (hq : q.items ≠ [] ∨ q.eof = true) :
    (q.ts[t]? = some .idle → ∃ who q' a, act q (.deq t who) = some (some (q', a)) ∧ a ≠ .none) ∧
    (q.ts[t]? = some .emptyWoken → ∃ who q' a, act q (.resume t who) = some (some (q', a)) ∧ a ≠ .none) := by
  have key : ∃ who q' a, take q t who = some (some (q', a)) ∧ a ≠ .none := by
    cases hi : q.items with
    | nil =>
      have he : q.eof = true := by
        rcases hq with x | x
        · exact absurd hi x
        · exact x
      refine ⟨0, { q with
        items := []
        ts := q.ts.set t .idle }, .eof, ?_, Ans.noConfusion⟩
      unfold take
      rw [hi]
      dsimp only
      rw [if_pos he]
    | cons x rest =>
      obtain ⟨item, w⟩ := x
      obtain ⟨who, ts, hs⟩ := signal_some (q.ts.set t .idle)
      refine ⟨who, { q with
        weight := q.weight - w
        items := rest
        ts := ts
        received := q.received ++ [item] }, .got item w (q.weight - w), ?_, Ans.noConfusion⟩
      unfold take
      rw [hi]
      dsimp only
      rw [hs]
  obtain ⟨who, q', a, h1, h2⟩ := key
  exact ⟨fun hid => ⟨who, q', a, by simp only [act]; rw [if_pos hid]; exact h1, h2⟩,
    fun hid => ⟨who, q', a, by simp only [act, hid]; exact h1, h2⟩⟩

/-- A thread that was woken because there is room returns from handing over. -/
theorem C81_returns (limit n : Nat) (evs : List Ev) (q : Q) (as : List Ans)
    (h : run (create limit n) evs = some (some (q, as))) (t : Nat) (ht : q.ts[t]? = some .fullWoken)
    (hl : load q.items ≤ limit) : ∃ q', act q (.resume t 0) = some (some (q', .sent (load q.items))) := by
  obtain ⟨hi, _, _, hl', _⟩ := run_inv evs (create_inv limit n) h
  have hl'' : q.limit = limit := hl'
  refine ⟨{ q with ts := q.ts.set t .idle }, ?_⟩
  simp only [act, ht]
  unfold waitRoom
  have := hi.weight
  rw [if_neg (by omega), ← this]

/-- Telling the end takes effect, as does handing over. -/
theorem C81_takes_effect (q : Q) (t : Nat) (ht : q.ts[t]? = some .idle) (he : q.eof = false) (item w : Nat) :
    (∃ who q', act q (.eof t who) = some (some (q', .ok)) ∧ q'.eof = true ∧ q'.items = q.items) ∧
    (∃ who q' a, act q (.enq t item w who) = some (some (q', a)) ∧ q'.items = q.items ++ [(item, w)]) := by
  obtain ⟨who, ts, hs⟩ := signal_some q.ts
  constructor
  · refine ⟨who, { q with eof := true, ts := ts }, ?_, rfl, rfl⟩
    simp only [act]
    rw [if_pos ht, if_neg (by rw [he]; exact Bool.false_ne_true), hs]
  · let p := waitRoom { q with
        weight := q.weight + w
        items := q.items ++ [(item, w)]
        ts := ts
        sent := q.sent ++ [item] } t
    refine ⟨who, p.1, p.2, ?_, ?_⟩
    · simp only [act]
      rw [if_pos ht, if_neg (by rw [he]; exact Bool.false_ne_true), hs]
    · show (waitRoom _ t).1.items = _
      rw [waitRoom_same]

/-- Destroying is refused exactly while the queue has items, and no assertion fails in any schedule in which
nothing is handed over, and the end is not told again, after the end was told. -/
theorem C81_asserts (limit n : Nat) (evs : List Ev) :
    (orderly false evs = true → run (create limit n) evs ≠ some none) ∧
    (∀ q as, run (create limit n) evs = some (some (q, as)) →
      act q .destroy = some (some (q, if q.items = [] then .ok else .einval))) := by
  refine ⟨fun ho => orderly_run evs (create_inv limit n) ho, ?_⟩
  intro q as h
  have hi := (run_inv evs (create_inv limit n) h).1
  simp only [act]
  by_cases c : q.items = []
  · have : q.weight = 0 := by rw [hi.weight, c]; rfl
    rw [if_neg (fun x => x c), if_neg (fun x => x this), if_pos c]
  · rw [if_pos c, if_neg c]

def sample : List Ev :=
  [.deq 1 0, .enq 0 5 1 1, .enq 0 6 1 0, .resume 1 0, .resume 0 0, .deq 1 0, .deq 1 0, .eof 0 1, .resume 1 0]

example : run (create 1 2) sample = some (some (
    { weight := 0, limit := 1, items := [], eof := true, ts := [.idle, .idle], sent := [5, 6], received := [5, 6] },
    [.none, .sent 1, .none, .got 5 1 1, .sent 1, .got 6 1 0, .none, .ok, .eof])) := by decide +kernel
example : sample.all Ev.paired = true := rfl
example : orderly false sample = true := rfl
example : (run (create 1 2) (sample.take 3)).map (·.map (fun p => (p.1.ts, p.1.items))) =
    some (some ([.full, .emptyWoken], [(5, 1), (6, 1)])) := by decide +kernel

/-- With two threads that hand over and one that takes - which the description of toku_queue_enq allows - all
three can end up asleep for ever with an item in the queue: the signal of the second call reaches the other
thread that waits for room instead of the one that waits for an item. -/
theorem C81_two_producers_refuted : ∃ evs q as, run (create 1 3) evs = some (some (q, as)) ∧
    evs.all (fun e => match e with | .deq t _ => t == 2 | .enq t _ _ _ => t != 2 | .spurious _ => false | _ => true) ∧
    q.items = [(7, 2)] ∧ q.ts = [.full, .full, .empty] :=
  ⟨[.deq 2 0, .enq 0 5 2 2, .enq 1 6 2 0, .resume 0 0, .resume 2 0, .resume 0 0, .deq 2 0, .deq 2 0, .resume 0 0,
    .enq 0 7 2 1, .resume 1 0],
   { weight := 2, limit := 1, items := [(7, 2)], eof := false, ts := [.full, .full, .empty], sent := [5, 6, 7],
     received := [5, 6] },
   [.none, .none, .none, .none, .got 5 2 2, .none, .got 6 2 0, .none, .sent 0, .none, .none],
   by decide +kernel, rfl, rfl, rfl⟩

/-- With two threads that take, one can sleep for ever after the end was told. -/
theorem C81_two_consumers_refuted : ∃ q as,
    run (create 1 3) [.deq 1 0, .deq 2 0, .eof 0 1, .resume 1 0] = some (some (q, as)) ∧
    q.eof = true ∧ q.ts = [.idle, .idle, .empty] ∧ as = [.none, .none, .ok, .eof] :=
  ⟨{ weight := 0, limit := 1, items := [], eof := true, ts := [.idle, .idle, .empty], sent := [], received := [] },
   [.none, .none, .ok, .eof], by decide +kernel, rfl, rfl, rfl⟩

end Verif.Pipe
