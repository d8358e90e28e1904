import Verif.Workers.Lemmas

/-! # Pools come to an end; waits for background jobs -/

namespace Verif.Workers

theorem signal_some (ws : List W) : ∃ who ws', signal ws who = some ws' := by
  unfold signal
  by_cases c : ws.all (fun w => decide (w ≠ .waiting)) = true
  · exact ⟨0, ws, if_pos c⟩
  · have : ∃ w, w ∈ ws ∧ w = .waiting := by
      apply Classical.byContradiction
      intro hn
      apply c
      rw [List.all_eq_true]
      intro w hw
      exact decide_eq_true (fun e => hn ⟨w, hw, e⟩)
    obtain ⟨w, hw, rfl⟩ := this
    obtain ⟨i, hi⟩ := List.getElem?_of_mem hw
    exact ⟨i, ws.set i .ready, by rw [if_neg c, if_pos hi]⟩

/-- A worker that is about to look can look. -/
theorem ready_moves {k : Pool} (h : W.ready ∈ k.ws) : ∃ w who k', act k (.work w who) = some (some k') := by
  obtain ⟨i, hi⟩ := List.getElem?_of_mem h
  cases hq : k.q with
  | cons job rest =>
    by_cases c : rest = []
    · let k' : Pool := { k with
          q := rest
          size := k.size - 1
          started := k.started ++ [job]
          ws := k.ws.set i (.busy job) }
      refine ⟨i, 0, k', ?_⟩
      simp only [act, hi, hq]
      rw [if_pos c]
    · obtain ⟨who, ws', hs⟩ := signal_some (k.ws.set i (.busy job))
      let k' : Pool := { k with
          q := rest
          size := k.size - 1
          started := k.started ++ [job]
          ws := ws' }
      refine ⟨i, who, k', ?_⟩
      simp only [act, hi, hq]
      rw [if_neg c, hs]
  | nil =>
    by_cases c : k.shut = true
    · obtain ⟨who, ws', hs⟩ := signal_some (k.ws.set i .gone)
      let k' : Pool := { k with
          q := []
          ws := ws' }
      refine ⟨i, who, k', ?_⟩
      simp only [act, hi, hq]
      rw [if_pos c, hs]
    · let k' : Pool := { k with
          q := []
          ws := k.ws.set i .waiting }
      refine ⟨i, 0, k', ?_⟩
      simp only [act, hi, hq]
      rw [if_neg c]

theorem busy_moves {k : Pool} {j : Nat} (h : W.busy j ∈ k.ws) : ∃ w k', act k (.finish w) = some (some k') := by
  obtain ⟨i, hi⟩ := List.getElem?_of_mem h
  let k' : Pool := { k with
    ws := k.ws.set i .ready
    processed := k.processed + 1
    done := k.done ++ [j] }
  refine ⟨i, k', ?_⟩
  simp only [act, hi, k']

/-- Without the workers asleep. -/
theorem awake_split (a b : List W) (x : W) :
    ((a ++ x :: b).map W.ahead).sum = ((a ++ b).map W.ahead).sum + x.ahead := by
  simp only [List.map_append, List.map_cons, List.sum_append, List.sum_cons]
  omega

theorem signal_ahead {ws ws' : List W} {who : Nat} (h : signal ws who = some ws') :
    (ws'.map W.ahead).sum ≤ (ws.map W.ahead).sum + 1 := by
  unfold signal at h
  split at h
  · cases h; omega
  · split at h
    · next d =>
      cases h
      obtain ⟨a, b, e, f⟩ := split_at d
      rw [f, e, awake_split, awake_split]
      simp only [W.ahead]; omega
    · cases h

theorem left_step {k k' : Pool} {e : Ev} (hs : k.shut = true) (ha : act k e = some (some k')) (hj : e ≠ .joined) :
    left k' < left k ∧ k'.shut = true ∧ k'.destroyed = k.destroyed := by
  cases e with
  | enq job who => simp only [act] at ha; rw [if_pos hs] at ha; cases ha
  | destroy who => simp only [act] at ha; rw [if_pos hs] at ha; cases ha
  | joined => exact absurd rfl hj
  | finish w =>
    simp only [act] at ha
    split at ha
    · next hw =>
      cases ha
      obtain ⟨a, b, e, f⟩ := split_at hw
      refine ⟨?_, hs, rfl⟩
      show 3 * k.q.length + ((k.ws.set w .ready).map W.left).sum < 3 * k.q.length + (k.ws.map W.left).sum
      rw [f, e, left_split, left_split]; simp only [W.left]; omega
    · cases ha
  | spurious w =>
    simp only [act] at ha
    split at ha
    · next hw =>
      cases ha
      obtain ⟨a, b, e, f⟩ := split_at hw
      refine ⟨?_, hs, rfl⟩
      show 3 * k.q.length + ((k.ws.set w .ready).map W.left).sum < 3 * k.q.length + (k.ws.map W.left).sum
      rw [f, e, left_split, left_split]; simp only [W.left]; omega
    · cases ha
  | work w who =>
    simp only [act] at ha
    split at ha
    · next hw =>
      obtain ⟨a, b, e, f⟩ := split_at hw
      split at ha
      · next job rest hq =>
        have key : ((k.ws.set w (.busy job)).map W.left).sum = (k.ws.map W.left).sum + 1 := by
          rw [f, e, left_split, left_split]; simp only [W.left]
        have l : k.q.length = rest.length + 1 := by rw [hq]; rfl
        split at ha
        · cases ha
          refine ⟨?_, hs, rfl⟩
          show 3 * rest.length + ((k.ws.set w (.busy job)).map W.left).sum < 3 * k.q.length + (k.ws.map W.left).sum
          omega
        · cases hg : signal (k.ws.set w (.busy job)) who with
          | none => rw [hg] at ha; cases ha
          | some ws =>
            rw [hg] at ha
            cases ha
            have := (signal_spec hg).2.2.2.2.2.2.1
            refine ⟨?_, hs, rfl⟩
            show 3 * rest.length + (ws.map W.left).sum < 3 * k.q.length + (k.ws.map W.left).sum
            omega
      · next hq =>
        rw [if_pos hs] at ha
        have key : ((k.ws.set w .gone).map W.left).sum + 1 = (k.ws.map W.left).sum := by
          rw [f, e, left_split, left_split]; simp only [W.left, Nat.add_zero]
        cases hg : signal (k.ws.set w .gone) who with
        | none => rw [hg] at ha; cases ha
        | some ws =>
          rw [hg] at ha
          cases ha
          have := (signal_spec hg).2.2.2.2.2.2.1
          refine ⟨?_, hs, rfl⟩
          show 3 * k.q.length + (ws.map W.left).sum < 3 * k.q.length + (k.ws.map W.left).sum
          omega
    · cases ha

theorem ahead_step {k k' : Pool} {e : Ev} (hs : k.shut = false) (ha : act k e = some (some k')) (hp : e.progress = true) :
    ahead k' < ahead k ∧ k'.shut = false := by
  cases e with
  | enq job who => cases hp
  | destroy who => cases hp
  | joined => cases hp
  | spurious w => cases hp
  | finish w =>
    simp only [act] at ha
    split at ha
    · next hw =>
      cases ha
      obtain ⟨a, b, e, f⟩ := split_at hw
      refine ⟨?_, hs⟩
      show 3 * k.q.length + ((k.ws.set w .ready).map W.ahead).sum < 3 * k.q.length + (k.ws.map W.ahead).sum
      rw [f, e, awake_split, awake_split]; simp only [W.ahead]; omega
    · cases ha
  | work w who =>
    simp only [act] at ha
    split at ha
    · next hw =>
      obtain ⟨a, b, e, f⟩ := split_at hw
      split at ha
      · next job rest hq =>
        have key : ((k.ws.set w (.busy job)).map W.ahead).sum = (k.ws.map W.ahead).sum + 1 := by
          rw [f, e, awake_split, awake_split]; simp only [W.ahead]
        have l : k.q.length = rest.length + 1 := by rw [hq]; rfl
        split at ha
        · cases ha
          refine ⟨?_, hs⟩
          show 3 * rest.length + ((k.ws.set w (.busy job)).map W.ahead).sum < 3 * k.q.length + (k.ws.map W.ahead).sum
          omega
        · cases hg : signal (k.ws.set w (.busy job)) who with
          | none => rw [hg] at ha; cases ha
          | some ws =>
            rw [hg] at ha
            cases ha
            have := signal_ahead hg
            refine ⟨?_, hs⟩
            show 3 * rest.length + (ws.map W.ahead).sum < 3 * k.q.length + (k.ws.map W.ahead).sum
            omega
      · next hq =>
        rw [if_neg (by rw [hs]; exact Bool.false_ne_true)] at ha
        cases ha
        have key : ((k.ws.set w .waiting).map W.ahead).sum + 1 = (k.ws.map W.ahead).sum := by
          rw [f, e, awake_split, awake_split]; simp only [W.ahead, Nat.add_zero]
        refine ⟨?_, hs⟩
        show 3 * k.q.length + ((k.ws.set w .waiting).map W.ahead).sum < 3 * k.q.length + (k.ws.map W.ahead).sum
        omega
    · cases ha

theorem run_cons {k t : Pool} {e : Ev} {es : List Ev} (hr : run k (e :: es) = some (some t)) :
    ∃ k', act k e = some (some k') ∧ run k' es = some (some t) := by
  simp only [run] at hr
  cases ha : act k e with
  | none => rw [ha] at hr; cases hr
  | some o =>
    cases o with
    | none => rw [ha] at hr; cases hr
    | some k' => rw [ha] at hr; exact ⟨k', rfl, hr⟩

theorem run_append (p : List Ev) : ∀ {k t : Pool} {s : List Ev}, run k (p ++ s) = some (some t) →
    ∃ m, run k p = some (some m) ∧ run m s = some (some t) := by
  induction p with
  | nil => intro k t s h; exact ⟨k, rfl, h⟩
  | cons e es ih =>
    intro k t s h
    obtain ⟨k', ha, hr⟩ := run_cons h
    obtain ⟨m, h1, h2⟩ := ih hr
    exact ⟨m, by simp only [run, ha]; exact h1, h2⟩

theorem dead {n : Nat} {k k' : Pool} {e : Ev} (h : Inv n k) (hd : k.destroyed = true)
    (ha : act k e = some (some k')) : False := by
  obtain ⟨hs, hg⟩ := h.ended hd
  have nope : ∀ (w : Nat) (x : W), k.ws[w]? = some x → x = .gone :=
    fun w x hx => hg x (List.mem_of_getElem? hx)
  cases e with
  | enq job who => simp only [act] at ha; rw [if_pos hs] at ha; cases ha
  | destroy who => simp only [act] at ha; rw [if_pos hs] at ha; cases ha
  | joined =>
    simp only [act] at ha
    rw [if_neg (by rintro ⟨_, _, e⟩; rw [hd] at e; cases e)] at ha
    cases ha
  | finish w =>
    simp only [act] at ha
    split at ha
    · next hw => cases nope _ _ hw
    · cases ha
  | spurious w =>
    simp only [act] at ha
    split at ha
    · next hw => cases nope _ _ hw
    · cases ha
  | work w who =>
    simp only [act] at ha
    split at ha
    · next hw => cases nope _ _ hw
    · cases ha

theorem run_left (es : List Ev) : ∀ {n : Nat} {k t : Pool}, Inv n k → k.shut = true →
    run k es = some (some t) → es.length ≤ left k + 1 ∧ t.shut = true := by
  induction es with
  | nil => intro n k t _ hs hr; simp only [run] at hr; cases hr; exact ⟨Nat.zero_le _, hs⟩
  | cons e es ih =>
    intro n k t h hs hr0
    obtain ⟨k', ha, hr⟩ := run_cons hr0
    clear hr0
    by_cases c : e = .joined
    · subst c
      have hd : k'.destroyed = true := by
        simp only [act] at ha
        split at ha
        · cases ha; rfl
        · cases ha
      have h' := act_inv h ha
      cases es with
      | nil => simp only [run] at hr; cases hr; exact ⟨by simp, (h'.ended hd).1⟩
      | cons e' es' =>
        obtain ⟨_, ha', _⟩ := run_cons hr
        exact (dead h' hd ha').elim
    · obtain ⟨l, s, d⟩ := left_step hs ha c
      obtain ⟨r1, r2⟩ := ih (act_inv h ha) s hr
      refine ⟨?_, r2⟩
      simp only [List.length_cons]
      omega

theorem run_ahead (es : List Ev) : ∀ {k t : Pool}, k.shut = false → (∀ e, e ∈ es → e.progress = true) →
    run k es = some (some t) → es.length + ahead t ≤ ahead k ∧ t.shut = false := by
  induction es with
  | nil => intro k t hs _ hr; simp only [run] at hr; cases hr; exact ⟨by simp, hs⟩
  | cons e es ih =>
    intro k t hs hp hr
    obtain ⟨k', ha, hr⟩ := run_cons hr
    obtain ⟨l, s⟩ := ahead_step hs ha (hp e (List.mem_cons_self ..))
    obtain ⟨r1, r2⟩ := ih s (fun x hx => hp x (List.mem_cons_of_mem _ hx)) hr
    refine ⟨?_, r2⟩
    simp only [List.length_cons]
    omega

theorem act_peak {k k' : Pool} {e : Ev} (ha : act k e = some (some k')) :
    k.maxSize ≤ k'.maxSize ∧ (k'.maxSize = k.maxSize ∨ k'.maxSize = k'.size) := by
  cases e with
  | enq job who =>
    simp only [act] at ha
    split at ha
    · cases ha
    · split at ha
      · cases ha
      · cases ha
        dsimp only
        split
        · exact ⟨by omega, Or.inr rfl⟩
        · exact ⟨Nat.le_refl _, Or.inl rfl⟩
  | work w who =>
    simp only [act] at ha
    split at ha
    · split at ha
      · split at ha
        · cases ha; exact ⟨Nat.le_refl _, Or.inl rfl⟩
        · split at ha
          · cases ha
          · cases ha; exact ⟨Nat.le_refl _, Or.inl rfl⟩
      · split at ha
        · split at ha
          · cases ha
          · cases ha; exact ⟨Nat.le_refl _, Or.inl rfl⟩
        · cases ha; exact ⟨Nat.le_refl _, Or.inl rfl⟩
    · cases ha
  | finish w =>
    simp only [act] at ha
    split at ha
    · cases ha; exact ⟨Nat.le_refl _, Or.inl rfl⟩
    · cases ha
  | spurious w =>
    simp only [act] at ha
    split at ha
    · cases ha; exact ⟨Nat.le_refl _, Or.inl rfl⟩
    · cases ha
  | destroy who =>
    simp only [act] at ha
    split at ha
    · cases ha
    · split at ha
      · cases ha
      · cases ha; exact ⟨Nat.le_refl _, Or.inl rfl⟩
  | joined =>
    simp only [act] at ha
    split at ha
    · cases ha; exact ⟨Nat.le_refl _, Or.inl rfl⟩
    · cases ha

theorem run_peak (es : List Ev) : ∀ {k t : Pool}, run k es = some (some t) →
    k.maxSize ≤ t.maxSize ∧ (t.maxSize = k.maxSize ∨
      ∃ p s m, es = p ++ s ∧ run k p = some (some m) ∧ t.maxSize = m.size) := by
  induction es with
  | nil => intro k t hr; simp only [run] at hr; cases hr; exact ⟨Nat.le_refl _, Or.inl rfl⟩
  | cons e es ih =>
    intro k t hr
    obtain ⟨k', ha, hr⟩ := run_cons hr
    obtain ⟨a1, a2⟩ := act_peak ha
    obtain ⟨r1, r2⟩ := ih hr
    refine ⟨Nat.le_trans a1 r1, ?_⟩
    rcases r2 with r2 | ⟨p, s, m, e1, e2, e3⟩
    · rcases a2 with a2 | a2
      · exact Or.inl (r2.trans a2)
      · exact Or.inr ⟨[e], es, k', rfl, by simp only [run, ha], r2.trans a2⟩
    · exact Or.inr ⟨e :: p, s, m, by rw [e1]; rfl, by simp only [run, ha]; exact e2, e3⟩

theorem act_shut {k k' : Pool} {e : Ev} (ha : act k e = some (some k')) :
    k'.shut = (match e with | .destroy _ => true | _ => k.shut) := by
  cases e with
  | enq job who =>
    simp only [act] at ha
    split at ha
    · cases ha
    · split at ha
      · cases ha
      · cases ha; rfl
  | work w who =>
    simp only [act] at ha
    split at ha
    · split at ha
      · split at ha
        · cases ha; rfl
        · split at ha
          · cases ha
          · cases ha; rfl
      · split at ha
        · split at ha
          · cases ha
          · cases ha; rfl
        · cases ha; rfl
    · cases ha
  | finish w =>
    simp only [act] at ha
    split at ha
    · cases ha; rfl
    · cases ha
  | spurious w =>
    simp only [act] at ha
    split at ha
    · cases ha; rfl
    · cases ha
  | destroy who =>
    simp only [act] at ha
    split at ha
    · cases ha
    · split at ha
      · cases ha
      · cases ha; rfl
  | joined =>
    simp only [act] at ha
    split at ha
    · cases ha; rfl
    · cases ha

theorem act_fails {k : Pool} {e : Ev} (ha : act k e = some none) :
    k.shut = true ∧ ((∃ j w, e = .enq j w) ∨ ∃ w, e = .destroy w) := by
  cases e with
  | enq job who =>
    simp only [act] at ha
    split at ha
    · next c => exact ⟨c, Or.inl ⟨job, who, rfl⟩⟩
    · split at ha <;> cases ha
  | work w who =>
    simp only [act] at ha
    split at ha
    · split at ha
      · split at ha
        · cases ha
        · split at ha <;> cases ha
      · split at ha
        · split at ha <;> cases ha
        · cases ha
    · cases ha
  | finish w =>
    simp only [act] at ha
    split at ha <;> cases ha
  | spurious w =>
    simp only [act] at ha
    split at ha <;> cases ha
  | destroy who =>
    simp only [act] at ha
    split at ha
    · next c => exact ⟨c, Or.inr ⟨who, rfl⟩⟩
    · split at ha <;> cases ha
  | joined =>
    simp only [act] at ha
    split at ha <;> cases ha

theorem orderly_run (es : List Ev) : ∀ {k : Pool}, orderly k.shut es = true → run k es ≠ some none := by
  induction es with
  | nil => intro k _ h; cases h
  | cons e es ih =>
    intro k ho h
    simp only [run] at h
    cases ha : act k e with
    | none => rw [ha] at h; cases h
    | some o =>
      cases o with
      | none =>
        obtain ⟨s, ⟨j, w, rfl⟩ | ⟨w, rfl⟩⟩ := act_fails ha
        · simp [orderly, s] at ho
        · simp [orderly, s] at ho
      | some k' =>
        rw [ha] at h
        refine ih ?_ h
        have hs := act_shut ha
        cases e with
        | enq j w =>
          simp only [orderly, Bool.and_eq_true] at ho
          dsimp only at hs
          rw [hs]; exact ho.2
        | destroy w =>
          simp only [orderly, Bool.and_eq_true] at ho
          dsimp only at hs
          rw [hs]; exact ho.2
        | work w who => rw [hs]; exact ho
        | finish w => rw [hs]; exact ho
        | spurious w => rw [hs]; exact ho
        | joined => rw [hs]; exact ho

/-! ## Background jobs -/

structure JInv (s : Jobs) : Prop where
  num : s.num = s.holders.length
  asleep : s.waiting = true → s.accepting = false ∧ 0 < s.num
  woken : s.woken = true → s.accepting = false
  one : s.waiting = true → s.woken = true → False
  over : s.returned = true → s.accepting = false ∧ s.num = 0 ∧ s.waiting = false ∧ s.woken = false

theorem jact_inv {s t : Jobs} {e : JEv} {r : Option Bool} (h : JInv s) (ha : jact s e = some (some (t, r))) :
    JInv t := by
  obtain ⟨h1, h2, h3, h4, h5⟩ := h
  cases e with
  | add i =>
    simp only [jact] at ha
    split at ha
    · next c =>
      cases ha
      refine ⟨by simp [h1], fun w => ⟨(h2 w).1, by show 0 < s.num + 1; omega⟩, h3, h4, ?_⟩
      intro o
      have := (h5 o).1
      rw [c] at this; cases this
    · cases ha; exact ⟨h1, h2, h3, h4, h5⟩
  | remove i =>
    simp only [jact] at ha
    split at ha
    · next hm =>
      have hl : (s.holders.erase i).length = s.holders.length - 1 := by
        rw [List.length_erase]; simp [hm]
      split at ha
      · cases ha
      · next hn =>
        split at ha
        · next c =>
          cases ha
          refine ⟨by show s.num - 1 = _; rw [hl, h1], fun w => (by cases w), ?_, fun w => (by cases w), ?_⟩
          · intro _; exact c.2
          · intro o; exact absurd (h5 o).2.1 hn
        · next c =>
          cases ha
          refine ⟨by show s.num - 1 = _; rw [hl, h1], ?_, h3, h4, ?_⟩
          · intro w
            obtain ⟨w1, w2⟩ := h2 w
            refine ⟨w1, ?_⟩
            show 0 < s.num - 1
            have : ¬ s.num - 1 = 0 := fun z => c ⟨z, w1⟩
            omega
          · intro o; exact absurd (h5 o).2.1 hn
    · cases ha
  | wait =>
    simp only [jact] at ha
    split at ha
    · cases ha
    · next c =>
      split at ha
      · next d =>
        cases ha
        exact ⟨h1, fun _ => ⟨rfl, d⟩, fun _ => rfl, fun _ w => c (Or.inr w), fun o => (by cases o)⟩
      · next d =>
        cases ha
        refine ⟨h1, fun w => absurd (Or.inl w) c, fun w => absurd (Or.inr w) c, h4, fun _ => ⟨rfl, ?_, ?_, ?_⟩⟩
        · show s.num = 0; omega
        · show s.waiting = false
          cases hw : s.waiting
          · rfl
          · exact absurd (Or.inl hw) c
        · show s.woken = false
          cases hw : s.woken
          · rfl
          · exact absurd (Or.inr hw) c
  | look =>
    simp only [jact] at ha
    split at ha
    · next c =>
      have acc := h3 c
      split at ha
      · next d =>
        cases ha
        exact ⟨h1, fun _ => ⟨acc, d⟩, fun w => (by cases w), fun _ w => (by cases w),
          fun o => absurd (h5 o).2.2.2 (by rw [c]; exact Bool.noConfusion)⟩
      · next d =>
        cases ha
        refine ⟨h1, h2, fun w => (by cases w), fun _ w => (by cases w), fun _ => ⟨acc, ?_, ?_, rfl⟩⟩
        · show s.num = 0; omega
        · show s.waiting = false
          cases hw : s.waiting
          · rfl
          · exact (h4 hw c).elim
    · cases ha
  | spurious =>
    simp only [jact] at ha
    split at ha
    · next c =>
      cases ha
      exact ⟨h1, fun w => (by cases w), fun _ => (h2 c).1, fun w => (by cases w),
        fun o => absurd (h5 o).2.2.1 (by rw [c]; exact Bool.noConfusion)⟩
    · cases ha
  | reset =>
    simp only [jact] at ha
    split at ha
    · cases ha
    · next c =>
      split at ha
      · cases ha
        exact ⟨h1, fun w => absurd (Or.inl w) c, fun w => absurd (Or.inr w) c, h4, fun o => (by cases o)⟩
      · cases ha

theorem jinit_inv : JInv Jobs.init :=
  ⟨rfl, fun h => (by cases h), fun h => (by cases h), fun h => (by cases h), fun h => (by cases h)⟩

theorem jrun_inv (es : List JEv) : ∀ {s t : Jobs}, JInv s → jrun s es = some (some t) → JInv t := by
  induction es with
  | nil => intro s t h hr; simp only [jrun] at hr; cases hr; exact h
  | cons e es ih =>
    intro s t h hr
    simp only [jrun] at hr
    cases ha : jact s e with
    | none => rw [ha] at hr; cases hr
    | some o =>
      cases o with
      | none => rw [ha] at hr; cases hr
      | some p => obtain ⟨u, r⟩ := p; rw [ha] at hr; exact ih (jact_inv h ha) hr

theorem jact_fails {s : Jobs} {e : JEv} (h : JInv s) (ha : jact s e = some none) : e = .reset ∧ s.num ≠ 0 := by
  cases e with
  | add i => simp only [jact] at ha; split at ha <;> cases ha
  | remove i =>
    simp only [jact] at ha
    split at ha
    · next hm =>
      split at ha
      · next z =>
        rw [h.num] at z
        rw [List.eq_nil_of_length_eq_zero z] at hm
        cases hm
      · split at ha <;> cases ha
    · cases ha
  | wait =>
    simp only [jact] at ha
    split at ha
    · cases ha
    · split at ha <;> cases ha
  | look =>
    simp only [jact] at ha
    split at ha
    · split at ha <;> cases ha
    · cases ha
  | spurious => simp only [jact] at ha; split at ha <;> cases ha
  | reset =>
    simp only [jact] at ha
    split at ha
    · cases ha
    · split at ha
      · cases ha
      · next z => exact ⟨rfl, z⟩

theorem careful_run (es : List JEv) : ∀ {s : Jobs}, JInv s → careful es s = true → jrun s es ≠ some none := by
  induction es with
  | nil => intro s _ _ h; cases h
  | cons e es ih =>
    intro s hi hc h
    simp only [jrun] at h
    simp only [careful, Bool.and_eq_true] at hc
    cases ha : jact s e with
    | none => rw [ha] at h; cases h
    | some o =>
      cases o with
      | none =>
        obtain ⟨e1, e2⟩ := jact_fails hi ha
        have := hc.1
        rw [if_pos e1] at this
        exact e2 (hi.over this).2.1
      | some p =>
        obtain ⟨u, r⟩ := p
        rw [ha] at h hc
        exact ih (jact_inv hi ha) hc.2 h

end Verif.Workers
