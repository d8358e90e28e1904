import Verif.Pipe.Spec

/-! # Lemmas on the queue -/

namespace Verif.Pipe

theorem load_append (a b : List (Nat × Nat)) : load (a ++ b) = load a + load b := by
  unfold load; rw [List.map_append, List.sum_append]

theorem load_cons (x : Nat × Nat) (b : List (Nat × Nat)) : load (x :: b) = x.2 + load b := by
  unfold load; rw [List.map_cons, List.sum_cons]

structure Inv (q : Q) : Prop where
  fifo : q.sent = q.received ++ q.items.map (·.1)
  weight : q.weight = load q.items

theorem waitRoom_same (q : Q) (t : Nat) : (waitRoom q t).1 = { q with ts := (waitRoom q t).1.ts } := by
  unfold waitRoom; split <;> rfl

theorem waitRoom_inv {q : Q} {t : Nat} (h : Inv q) : Inv (waitRoom q t).1 := by
  rw [waitRoom_same]; exact ⟨h.fifo, h.weight⟩

theorem take_inv {q q' : Q} {t who : Nat} {a : Ans} (h : Inv q) (ha : take q t who = some (some (q', a))) :
    Inv q' ∧ q'.received = q.received ++ gets [a] ∧ q'.sent = q.sent ∧ q'.eof = q.eof ∧ q'.limit = q.limit := by
  unfold take at ha
  split at ha
  · next hi =>
    split at ha
    · cases ha
      exact ⟨⟨h.fifo, h.weight⟩, (List.append_nil _).symm, rfl, rfl, rfl⟩
    · cases ha
      exact ⟨⟨h.fifo, h.weight⟩, (List.append_nil _).symm, rfl, rfl, rfl⟩
  · next item w rest hi =>
    split at ha
    · cases ha
    · cases ha
      refine ⟨⟨?_, ?_⟩, rfl, rfl, rfl, rfl⟩
      · show q.sent = q.received ++ [item] ++ rest.map (·.1)
        rw [h.fifo, hi]; simp
      · show q.weight - w = load rest
        rw [h.weight, hi, load_cons]
        show w + load rest - w = load rest
        omega

theorem waitRoom_gets (q : Q) (t : Nat) : gets [(waitRoom q t).2] = [] := by
  unfold waitRoom; split <;> rfl

theorem act_inv {q q' : Q} {e : Ev} {a : Ans} (h : Inv q) (ha : act q e = some (some (q', a))) :
    Inv q' ∧ q'.received = q.received ++ gets [a] ∧ q'.sent = q.sent ++ gives [e] ∧ q'.limit = q.limit ∧
    (q.eof = true → q'.eof = true ∧ gives [e] = []) := by
  cases e with
  | enq t item w who =>
    simp only [act] at ha
    split at ha
    · split at ha
      · cases ha
      · next he =>
        split at ha
        · cases ha
        · next ts hs =>
          have he' : q.eof = false := by simpa using he
          have hi : Inv { q with
            weight := q.weight + w
            items := q.items ++ [(item, w)]
            ts := ts
            sent := q.sent ++ [item] } := by
            refine ⟨?_, ?_⟩
            · show q.sent ++ [item] = q.received ++ (q.items ++ [(item, w)]).map (·.1)
              rw [h.fifo]; simp
            · show q.weight + w = load (q.items ++ [(item, w)])
              rw [load_append, h.weight]
              show load q.items + w = load q.items + (w + 0)
              rfl
          simp only [Option.some.injEq] at ha
          have e1 := congrArg Prod.fst ha
          have e2 := congrArg Prod.snd ha
          dsimp only at e1 e2
          subst e1
          subst e2
          rw [waitRoom_gets]
          refine ⟨waitRoom_inv hi, ?_, ?_, ?_, ?_⟩
          · rw [waitRoom_same]; exact (List.append_nil _).symm
          · rw [waitRoom_same]; rfl
          · rw [waitRoom_same]
          · intro x; rw [he'] at x; cases x
    · cases ha
  | deq t who =>
    simp only [act] at ha
    split at ha
    · obtain ⟨a1, a2, a3, a4, a5⟩ := take_inv h ha
      exact ⟨a1, a2, a3.trans (List.append_nil _).symm, a5, fun x => ⟨a4.trans x, rfl⟩⟩
    · cases ha
  | eof t who =>
    simp only [act] at ha
    split at ha
    · split at ha
      · cases ha
      · split at ha
        · cases ha
        · cases ha
          exact ⟨⟨h.fifo, h.weight⟩, (List.append_nil _).symm, (List.append_nil _).symm, rfl, fun _ => ⟨rfl, rfl⟩⟩
    · cases ha
  | resume t who =>
    simp only [act] at ha
    split at ha
    · simp only [Option.some.injEq] at ha
      have e1 := congrArg Prod.fst ha
      have e2 := congrArg Prod.snd ha
      dsimp only at e1 e2
      subst e1
      subst e2
      rw [waitRoom_gets]
      refine ⟨waitRoom_inv h, ?_, ?_, ?_, ?_⟩
      · rw [waitRoom_same]; exact (List.append_nil _).symm
      · rw [waitRoom_same]; exact (List.append_nil _).symm
      · rw [waitRoom_same]
      · intro x; rw [waitRoom_same]; exact ⟨x, rfl⟩
    · obtain ⟨a1, a2, a3, a4, a5⟩ := take_inv h ha
      exact ⟨a1, a2, a3.trans (List.append_nil _).symm, a5, fun x => ⟨a4.trans x, rfl⟩⟩
    · cases ha
  | spurious t =>
    simp only [act] at ha
    split at ha
    · split at ha
      · cases ha
        exact ⟨⟨h.fifo, h.weight⟩, (List.append_nil _).symm, (List.append_nil _).symm, rfl, fun x => ⟨x, rfl⟩⟩
      · cases ha
    · cases ha
  | destroy =>
    simp only [act] at ha
    split at ha
    · cases ha
      exact ⟨h, (List.append_nil _).symm, (List.append_nil _).symm, rfl, fun x => ⟨x, rfl⟩⟩
    · split at ha
      · cases ha
      · cases ha
        exact ⟨h, (List.append_nil _).symm, (List.append_nil _).symm, rfl, fun x => ⟨x, rfl⟩⟩

theorem gives_cons (e : Ev) (es : List Ev) : gives (e :: es) = gives [e] ++ gives es := by cases e <;> rfl
theorem gets_cons (a : Ans) (as : List Ans) : gets (a :: as) = gets [a] ++ gets as := by cases a <;> rfl

theorem run_cons {q r : Q} {e : Ev} {es : List Ev} {as : List Ans} (h : run q (e :: es) = some (some (r, as))) :
    ∃ q' a bs, act q e = some (some (q', a)) ∧ run q' es = some (some (r, bs)) ∧ as = a :: bs := by
  simp only [run] at h
  cases ha : act q e with
  | none => rw [ha] at h; cases h
  | some o =>
    cases o with
    | none => rw [ha] at h; cases h
    | some p =>
      obtain ⟨q', a⟩ := p
      rw [ha] at h
      dsimp only at h
      cases hr : run q' es with
      | none => rw [hr] at h; cases h
      | some o =>
        cases o with
        | none => rw [hr] at h; cases h
        | some p =>
          obtain ⟨r', bs⟩ := p
          rw [hr] at h
          cases h
          exact ⟨q', a, bs, rfl, hr, rfl⟩

theorem run_inv (es : List Ev) : ∀ {q r : Q} {as : List Ans}, Inv q → run q es = some (some (r, as)) →
    Inv r ∧ r.received = q.received ++ gets as ∧ r.sent = q.sent ++ gives es ∧ r.limit = q.limit ∧
    (q.eof = true → gives es = [] ∧ r.eof = true) := by
  induction es with
  | nil =>
    intro q r as h hr
    simp only [run] at hr
    cases hr
    exact ⟨h, (List.append_nil _).symm, (List.append_nil _).symm, rfl, fun x => ⟨rfl, x⟩⟩
  | cons e es ih =>
    intro q r as h hr0
    obtain ⟨q', a, bs, ha, hr, rfl⟩ := run_cons hr0
    obtain ⟨a1, a2, a3, a4, a5⟩ := act_inv h ha
    obtain ⟨b1, b2, b3, b4, b5⟩ := ih a1 hr
    refine ⟨b1, ?_, ?_, b4.trans a4, ?_⟩
    · rw [b2, a2, gets_cons a bs, List.append_assoc]
    · rw [b3, a3, gives_cons e es, List.append_assoc]
    · intro x
      obtain ⟨y1, y2⟩ := a5 x
      obtain ⟨z1, z2⟩ := b5 y1
      refine ⟨?_, z2⟩
      rw [gives_cons, y2, z1]; rfl

theorem create_inv (limit n : Nat) : Inv (create limit n) := ⟨rfl, rfl⟩

/-! ## One thread on each side -/

structure Pair (q : Q) : Prop where
  inv : Inv q
  shape : ∃ a b, q.ts = [a, b] ∧
    ((a = .idle ∧ load q.items ≤ q.limit) ∨ (a = .full ∧ q.limit < load q.items) ∨ a = .fullWoken) ∧
    (b = .idle ∨ (b = .empty ∧ q.items = [] ∧ q.eof = false) ∨ b = .emptyWoken)
  room : load q.items.dropLast ≤ q.limit
  calm : q.eof = true → ∃ b, q.ts = [.idle, b]

theorem signal_pair {a b : T} {who : Nat} {ts : List T} (h : signal [a, b] who = some ts) :
    (a.asleep = false ∧ b.asleep = false ∧ ts = [a, b]) ∨ (a.asleep = true ∧ ts = [a.wake, b]) ∨
    (b.asleep = true ∧ ts = [a, b.wake]) := by
  unfold signal at h
  split at h
  · next c =>
    cases h
    left
    simpa using c
  · split at h
    · next t ht =>
      split at h
      · next c =>
        cases h
        match who, ht with
        | 0, ht =>
          simp only [List.getElem?_cons_zero, Option.some.injEq] at ht
          subst ht
          right; left; exact ⟨c, rfl⟩
        | 1, ht =>
          simp only [List.getElem?_cons_succ, List.getElem?_cons_zero, Option.some.injEq] at ht
          subst ht
          right; right; exact ⟨c, rfl⟩
        | n + 2, ht => simp at ht
      · cases h
    · cases h

theorem dropLast_load (l : List (Nat × Nat)) : load l.dropLast ≤ load l := by
  cases l with
  | nil => exact Nat.le_refl _
  | cons x r =>
    have := List.dropLast_concat_getLast (List.cons_ne_nil x r)
    conv => rhs; rw [← this]
    rw [load_append]; omega

theorem tail_load (x : Nat × Nat) (r : List (Nat × Nat)) : load r.dropLast ≤ load (x :: r).dropLast := by
  cases r with
  | nil => exact Nat.zero_le _
  | cons y z =>
    rw [List.dropLast_cons_of_ne_nil (List.cons_ne_nil y z), load_cons]
    omega

/-- Taking, by thread 1, which holds the mutex. -/
theorem take_pair {q q' : Q} {a b : T} {who : Nat} {an : Ans} (h : Inv q) (hts : q.ts = [a, b])
    (ha : (a = .idle ∧ load q.items ≤ q.limit) ∨ (a = .full ∧ q.limit < load q.items) ∨ a = .fullWoken)
    (hr : load q.items.dropLast ≤ q.limit) (hc : q.eof = true → ∃ b, q.ts = [.idle, b])
    (ht : take q 1 who = some (some (q', an))) : Pair q' := by
  have hinv := take_inv h ht
  unfold take at ht
  split at ht
  · next hi =>
    split at ht
    · next he =>
      cases ht
      obtain ⟨b', hb⟩ := hc he
      rw [hts] at hb
      cases hb
      refine ⟨hinv.1, ⟨.idle, .idle, by show q.ts.set 1 .idle = _; rw [hts]; rfl, ?_, Or.inl rfl⟩, hr,
        fun _ => ⟨.idle, by show q.ts.set 1 .idle = _; rw [hts]; rfl⟩⟩
      exact ha
    · next he =>
      cases ht
      have he' : q.eof = false := by simpa using he
      refine ⟨hinv.1, ⟨a, .empty, by show q.ts.set 1 .empty = _; rw [hts]; rfl, ?_,
        Or.inr (Or.inl ⟨rfl, hi, he'⟩)⟩, hr, fun x => ?_⟩
      · exact ha
      · have x' : q.eof = true := x
        rw [he'] at x'; cases x'
  · next item w rest hi =>
    have e1 : q.ts.set 1 .idle = [a, .idle] := by rw [hts]; rfl
    rw [e1] at ht
    cases hs : signal [a, .idle] who with
    | none => rw [hs] at ht; cases ht
    | some ts =>
      rw [hs] at ht
      cases ht
      have less : load rest ≤ load q.items := by rw [hi, load_cons]; omega
      have hroom : load rest.dropLast ≤ q.limit := Nat.le_trans (tail_load (item, w) rest) (by rw [← hi]; exact hr)
      have calm : q.eof = true → ∃ b, ts = [.idle, b] := by
        intro x
        obtain ⟨b', hb⟩ := hc x
        rw [hts] at hb
        cases hb
        rcases signal_pair hs with ⟨_, _, e⟩ | ⟨e, _⟩ | ⟨e, _⟩
        · exact ⟨_, e⟩
        · cases e
        · cases e
      refine ⟨hinv.1, ?_, hroom, calm⟩
      rcases signal_pair hs with ⟨s, _, e⟩ | ⟨s, e⟩ | ⟨s, e⟩
      · refine ⟨a, .idle, e, ?_, Or.inl rfl⟩
        rcases ha with ⟨rfl, l⟩ | ⟨rfl, l⟩ | rfl
        · exact Or.inl ⟨rfl, Nat.le_trans less l⟩
        · cases s
        · exact Or.inr (Or.inr rfl)
      · refine ⟨a.wake, .idle, e, ?_, Or.inl rfl⟩
        rcases ha with ⟨rfl, l⟩ | ⟨rfl, l⟩ | rfl
        · cases s
        · exact Or.inr (Or.inr rfl)
        · cases s
      · cases s

theorem waitRoom_pair {q : Q} {a b : T} (h : Inv q) (hts : q.ts = [a, b])
    (hb : b = .idle ∨ (b = .empty ∧ q.items = [] ∧ q.eof = false) ∨ b = .emptyWoken)
    (hr : load q.items.dropLast ≤ q.limit) (he : q.eof = false) : Pair (waitRoom q 0).1 := by
  have hi := waitRoom_inv (t := 0) h
  unfold waitRoom at hi ⊢
  have hw := h.weight
  split
  · next c =>
    rw [if_pos c] at hi
    refine ⟨hi, ⟨.full, b, by show q.ts.set 0 .full = _; rw [hts]; rfl, Or.inr (Or.inl ⟨rfl, ?_⟩), hb⟩, hr, ?_⟩
    · show q.limit < load q.items; omega
    · intro x
      have x' : q.eof = true := x
      rw [he] at x'; cases x'
  · next c =>
    rw [if_neg c] at hi
    refine ⟨hi, ⟨.idle, b, by show q.ts.set 0 .idle = _; rw [hts]; rfl, Or.inl ⟨rfl, ?_⟩, hb⟩, hr, ?_⟩
    · show load q.items ≤ q.limit; omega
    · intro x
      have x' : q.eof = true := x
      rw [he] at x'; cases x'

theorem act_pair {q q' : Q} {e : Ev} {an : Ans} (h : Pair q) (hp : e.paired = true)
    (hact : act q e = some (some (q', an))) : Pair q' := by
  have hinv := (act_inv h.inv hact).1
  obtain ⟨a, b, hts, ha, hb⟩ := h.shape
  cases e with
  | enq t item w who =>
    have ht : t = 0 := by simpa [Ev.paired] using hp
    subst ht
    simp only [act] at hact
    split at hact
    · next hid =>
      have hid' : a = .idle := by rw [hts] at hid; simpa using hid
      subst hid'
      have hl : load q.items ≤ q.limit := by
        rcases ha with ⟨_, l⟩ | ⟨x, _⟩ | x
        · exact l
        · cases x
        · cases x
      split at hact
      · cases hact
      · next he =>
        have he' : q.eof = false := by simpa using he
        rw [hts] at hact
        cases hs : signal [.idle, b] who with
        | none => rw [hs] at hact; cases hact
        | some ts =>
          rw [hs] at hact
          simp only [Option.some.injEq] at hact
          have e1 := congrArg Prod.fst hact
          dsimp only at e1
          subst e1
          have hi : Inv { q with
            weight := q.weight + w
            items := q.items ++ [(item, w)]
            ts := ts
            sent := q.sent ++ [item] } := by
            refine ⟨?_, ?_⟩
            · show q.sent ++ [item] = q.received ++ (q.items ++ [(item, w)]).map (·.1)
              rw [h.inv.fifo]; simp
            · show q.weight + w = load (q.items ++ [(item, w)])
              rw [load_append, h.inv.weight]
              show load q.items + w = load q.items + (w + 0)
              rfl
          have hroom : load (q.items ++ [(item, w)]).dropLast ≤ q.limit := by
            rw [List.dropLast_concat]; exact hl
          rcases signal_pair hs with ⟨_, s, e⟩ | ⟨s, _⟩ | ⟨s, e⟩
          · refine waitRoom_pair hi e ?_ hroom he'
            rcases hb with x | ⟨x, _, _⟩ | x
            · exact Or.inl x
            · subst x; cases s
            · exact Or.inr (Or.inr x)
          · cases s
          · refine waitRoom_pair hi e ?_ hroom he'
            rcases hb with x | ⟨x, _, _⟩ | x
            · subst x; cases s
            · subst x; exact Or.inr (Or.inr rfl)
            · subst x; cases s
    · cases hact
  | deq t who =>
    have ht : t = 1 := by simpa [Ev.paired] using hp
    subst ht
    simp only [act] at hact
    split at hact
    · exact take_pair h.inv hts ha h.room h.calm hact
    · cases hact
  | eof t who =>
    have ht : t = 0 := by simpa [Ev.paired] using hp
    subst ht
    simp only [act] at hact
    split at hact
    · next hid =>
      have hid' : a = .idle := by rw [hts] at hid; simpa using hid
      subst hid'
      split at hact
      · cases hact
      · rw [hts] at hact
        cases hs : signal [.idle, b] who with
        | none => rw [hs] at hact; cases hact
        | some ts =>
          rw [hs] at hact
          cases hact
          rcases signal_pair hs with ⟨_, s, e⟩ | ⟨s, _⟩ | ⟨s, e⟩
          · refine ⟨hinv, ⟨.idle, b, e, ha, ?_⟩, h.room, fun _ => ⟨b, e⟩⟩
            rcases hb with x | ⟨x, _, _⟩ | x
            · exact Or.inl x
            · subst x; cases s
            · exact Or.inr (Or.inr x)
          · cases s
          · refine ⟨hinv, ⟨.idle, b.wake, e, ha, ?_⟩, h.room, fun _ => ⟨b.wake, e⟩⟩
            rcases hb with x | ⟨x, _, _⟩ | x
            · subst x; cases s
            · subst x; exact Or.inr (Or.inr rfl)
            · subst x; cases s
    · cases hact
  | resume t who =>
    simp only [act] at hact
    split at hact
    · next hw =>
      have ht : t = 0 := by
        rw [hts] at hw
        match t, hw with
        | 0, _ => rfl
        | 1, hw =>
          simp only [List.getElem?_cons_succ, List.getElem?_cons_zero, Option.some.injEq] at hw
          subst hw
          rcases hb with x | ⟨x, _, _⟩ | x <;> cases x
        | n + 2, hw => simp at hw
      subst ht
      have hid' : a = .fullWoken := by rw [hts] at hw; simpa using hw
      have he : q.eof = false := by
        cases c : q.eof
        · rfl
        · obtain ⟨b', x⟩ := h.calm c
          rw [hts, hid'] at x
          cases x
      simp only [Option.some.injEq] at hact
      have e1 := congrArg Prod.fst hact
      dsimp only at e1
      subst e1
      exact waitRoom_pair h.inv hts hb h.room he
    · next hw =>
      have ht : t = 1 := by
        rw [hts] at hw
        match t, hw with
        | 1, _ => rfl
        | 0, hw =>
          simp only [List.getElem?_cons_zero, Option.some.injEq] at hw
          subst hw
          rcases ha with ⟨x, _⟩ | ⟨x, _⟩ | x <;> cases x
        | n + 2, hw => simp at hw
      subst ht
      exact take_pair h.inv hts ha h.room h.calm hact
    · cases hact
  | spurious t =>
    simp only [act] at hact
    rw [hts] at hact
    match t, hact with
    | 0, hact =>
      simp only [List.getElem?_cons_zero] at hact
      split at hact
      · next c =>
        cases hact
        refine ⟨hinv, ⟨a.wake, b, rfl, ?_, hb⟩, h.room, ?_⟩
        · rcases ha with ⟨x, _⟩ | ⟨x, _⟩ | x
          · subst x; cases c
          · subst x; exact Or.inr (Or.inr rfl)
          · subst x; cases c
        · intro x
          obtain ⟨b', y⟩ := h.calm x
          rw [hts] at y
          cases y
          cases c
      · cases hact
    | 1, hact =>
      simp only [List.getElem?_cons_succ, List.getElem?_cons_zero] at hact
      split at hact
      · next c =>
        cases hact
        refine ⟨hinv, ⟨a, b.wake, rfl, ha, ?_⟩, h.room, ?_⟩
        · rcases hb with x | ⟨x, _, _⟩ | x
          · subst x; cases c
          · subst x; exact Or.inr (Or.inr rfl)
          · subst x; cases c
        · intro x
          obtain ⟨b', y⟩ := h.calm x
          rw [hts] at y
          cases y
          exact ⟨b.wake, rfl⟩
      · cases hact
    | n + 2, hact => simp at hact
  | destroy =>
    simp only [act] at hact
    split at hact
    · cases hact; exact h
    · split at hact
      · cases hact
      · cases hact; exact h

theorem run_pair (es : List Ev) : ∀ {q r : Q} {as : List Ans}, Pair q → (∀ e, e ∈ es → e.paired = true) →
    run q es = some (some (r, as)) → Pair r := by
  induction es with
  | nil => intro q r as h _ hr; simp only [run] at hr; cases hr; exact h
  | cons e es ih =>
    intro q r as h hp hr0
    obtain ⟨q', a, bs, ha, hr, rfl⟩ := run_cons hr0
    exact ih (act_pair h (hp e (List.mem_cons_self ..)) ha) (fun x hx => hp x (List.mem_cons_of_mem _ hx)) hr

theorem create_pair (limit : Nat) : Pair (create limit 2) :=
  ⟨create_inv limit 2, ⟨.idle, .idle, rfl, Or.inl ⟨rfl, Nat.zero_le _⟩, Or.inl rfl⟩, Nat.zero_le _,
    fun h => (by cases h)⟩

/-! ## Assertions -/

theorem signal_some (ts : List T) : ∃ who ts', signal ts who = some ts' := by
  unfold signal
  by_cases c : ts.all (fun t => !t.asleep) = true
  · exact ⟨0, ts, if_pos c⟩
  · have : ∃ t, t ∈ ts ∧ t.asleep = true := by
      apply Classical.byContradiction
      intro hn
      apply c
      rw [List.all_eq_true]
      intro t ht
      cases hh : t.asleep
      · rfl
      · exact absurd ⟨t, ht, hh⟩ hn
    obtain ⟨t, ht, hs⟩ := this
    obtain ⟨i, hi⟩ := List.getElem?_of_mem ht
    refine ⟨i, ts.set i t.wake, ?_⟩
    rw [if_neg c, hi]
    dsimp only
    rw [if_pos hs]

theorem act_fails {q : Q} {e : Ev} (h : Inv q) (ha : act q e = some none) :
    q.eof = true ∧ ((∃ t i w who, e = .enq t i w who) ∨ ∃ t who, e = .eof t who) := by
  have htake : ∀ t who, take q t who ≠ some none := by
    intro t who x
    unfold take at x
    split at x
    · split at x <;> cases x
    · split at x <;> cases x
  cases e with
  | enq t i w who =>
    simp only [act] at ha
    split at ha
    · split at ha
      · next c => exact ⟨c, Or.inl ⟨t, i, w, who, rfl⟩⟩
      · split at ha <;> cases ha
    · cases ha
  | deq t who =>
    simp only [act] at ha
    split at ha
    · exact absurd ha (htake t who)
    · cases ha
  | eof t who =>
    simp only [act] at ha
    split at ha
    · split at ha
      · next c => exact ⟨c, Or.inr ⟨t, who, rfl⟩⟩
      · split at ha <;> cases ha
    · cases ha
  | resume t who =>
    simp only [act] at ha
    split at ha
    · cases ha
    · exact absurd ha (htake t who)
    · cases ha
  | spurious t =>
    simp only [act] at ha
    split at ha
    · split at ha <;> cases ha
    · cases ha
  | destroy =>
    simp only [act] at ha
    split at ha
    · cases ha
    · next c =>
      have c' : q.items = [] := Classical.byContradiction c
      have : q.weight = 0 := by rw [h.weight, c']; rfl
      rw [if_neg (fun x => x this)] at ha
      cases ha

def endsBy : Ev → Bool → Bool
  | .eof .., _ => true
  | _, b => b

theorem act_eof {q q' : Q} {e : Ev} {a : Ans} (ha : act q e = some (some (q', a))) :
    q'.eof = endsBy e q.eof := by
  have htake : ∀ t who, take q t who = some (some (q', a)) → q'.eof = q.eof := by
    intro t who x
    unfold take at x
    split at x
    · split at x <;> (cases x; rfl)
    · split at x
      · cases x
      · cases x; rfl
  cases e with
  | enq t i w who =>
    simp only [act] at ha
    split at ha
    · split at ha
      · cases ha
      · split at ha
        · cases ha
        · simp only [Option.some.injEq] at ha
          have e1 := congrArg Prod.fst ha
          dsimp only at e1
          subst e1
          rw [waitRoom_same]; rfl
    · cases ha
  | deq t who =>
    simp only [act] at ha
    split at ha
    · exact htake t who ha
    · cases ha
  | eof t who =>
    simp only [act] at ha
    split at ha
    · split at ha
      · cases ha
      · split at ha
        · cases ha
        · cases ha; rfl
    · cases ha
  | resume t who =>
    simp only [act] at ha
    split at ha
    · simp only [Option.some.injEq] at ha
      have e1 := congrArg Prod.fst ha
      dsimp only at e1
      subst e1
      rw [waitRoom_same]; rfl
    · exact htake t who ha
    · cases ha
  | spurious t =>
    simp only [act] at ha
    split at ha
    · split at ha
      · cases ha; rfl
      · cases ha
    · cases ha
  | destroy =>
    simp only [act] at ha
    split at ha
    · cases ha; rfl
    · split at ha
      · cases ha
      · cases ha; rfl

theorem orderly_run (es : List Ev) : ∀ {q : Q}, Inv q → orderly q.eof es = true → run q es ≠ some none := by
  induction es with
  | nil => intro q _ _ h; cases h
  | cons e es ih =>
    intro q hi ho h
    simp only [run] at h
    cases ha : act q e with
    | none => rw [ha] at h; cases h
    | some o =>
      cases o with
      | none =>
        obtain ⟨s, ⟨t, i, w, who, rfl⟩ | ⟨t, who, rfl⟩⟩ := act_fails hi ha
        · simp [orderly, s] at ho
        · simp [orderly, s] at ho
      | some p =>
        obtain ⟨q', a⟩ := p
        rw [ha] at h
        dsimp only at h
        have hq := ih (q := q') (act_inv hi ha).1 (by
          have hs := act_eof ha
          cases e with
          | enq t i w who =>
            simp only [orderly, Bool.and_eq_true] at ho
            simp only [endsBy] at hs
            rw [hs]; exact ho.2
          | eof t who =>
            simp only [orderly, Bool.and_eq_true] at ho
            simp only [endsBy] at hs
            rw [hs]; exact ho.2
          | deq t who => rw [hs]; exact ho
          | resume t who => rw [hs]; exact ho
          | spurious t => rw [hs]; exact ho
          | destroy => rw [hs]; exact ho)
        cases hr : run q' es with
        | none => rw [hr] at h; cases h
        | some o =>
          cases o with
          | none => exact hq hr
          | some p => obtain ⟨x, y⟩ := p; rw [hr] at h; cases h

end Verif.Pipe
