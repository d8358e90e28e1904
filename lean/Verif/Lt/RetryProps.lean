import Verif.Lt.RetryLemmas

/-!
C26: no lost wake-up.

`Reach meets s` ranges over every interleaving of the threads' atomic steps.  `Waiting s w r` says that the thread of
`w` sleeps inside its lock request for `r` and the request is still among the pending ones.  `Blocks` is the
specification of being blocked: another transaction holds a lock that meets the request.
-/
namespace Verif.Lt.Retry
variable {R : Type} [DecidableEq R] {meets : R → R → Bool}

def Reach (meets : R → R → Bool) (s : State R) : Prop := ∃ es, run meets State.init es = some s

/-- `u` holds a lock that meets `r`. -/
def Blocks (meets : R → R → Bool) (s : State R) (u : Txn) (r : R) : Prop := ∃ r', (u, r') ∈ s.held ∧ meets r r' = true

/-- `w` sleeps, its request pending. -/
def Waiting (s : State R) (w : Txn) (r : R) : Prop := s.phase w = .asleep r ∧ (w, r) ∈ s.pending

/-- The thread is between beginning to release its locks and leaving `retry_all_lock_requests`. -/
def midRelease : Phase R → Bool
  | .releasing | .readEmpty | .takeNumber | .numbered _ | .standBy _ | .passStart | .passAt _ | .finishing => true
  | _ => false

theorem numbered_pos {s s' : State R} (h : ∀ t m, s.phase t = .numbered m → 0 < m) {e : Ev R} (hs : step meets s e = some s') :
    ∀ t m, s'.phase t = .numbered m → 0 < m := by
  have mv : ∀ (x : State R) (u : Txn) (p : Phase R), x.phase = s.phase → (∀ m, p = .numbered m → 0 < m) →
      ∀ t m, (x.at u p).phase t = .numbered m → 0 < m := by
    intro x u p hx hp t m ht
    simp only [at_phase] at ht
    split at ht
    · exact hp m ht
    · rw [hx] at ht; exact h t m ht
  have ld : ∀ t m, ∀ u k, (s.lead t m).phase u = .numbered k → 0 < k := by
    intro t m
    unfold State.lead
    split
    · exact mv _ _ _ rfl (fun _ h => nomatch h)
    · exact mv _ _ _ rfl (fun _ h => nomatch h)
  have rt : ∀ t r, (s.retry meets t r).1.phase = s.phase := by
    intro t r; unfold State.retry; split <;> rfl
  cases e <;> simp only [step] at hs
  case request t r =>
    split at hs
    · simp only [Option.some.injEq] at hs
      split at hs <;> subst hs
      · exact mv _ _ _ rfl (fun _ h => nomatch h)
      · exact h
    · cases hs
  case insert t =>
    split at hs
    · cases hs; exact mv _ _ _ rfl (fun _ h => nomatch h)
    · cases hs
  case inserted t d =>
    split at hs
    · simp only [Option.some.injEq] at hs
      split at hs <;> subst hs
      · exact mv _ _ _ rfl (fun _ h => nomatch h)
      · exact mv _ _ _ rfl (fun _ h => nomatch h)
    · cases hs
  case enterWait t =>
    split at hs
    · split at hs
      · cases hs; exact mv _ _ _ (rt _ _) (fun m hm => by split at hm <;> cases hm)
      · cases hs; exact mv _ _ _ rfl (fun _ h => nomatch h)
    · cases hs
  case wake t =>
    split at hs
    · split at hs
      · cases hs
      · cases hs; exact mv _ _ _ rfl (fun _ h => nomatch h)
    · cases hs
  case giveUp t =>
    split at hs
    · split at hs
      · cases hs; exact mv _ _ _ rfl (fun _ h => nomatch h)
      · cases hs
    · cases hs
  case kill t =>
    split at hs
    · split at hs
      · cases hs; exact h
      · cases hs
    · cases hs
  case escalate u r =>
    split at hs
    · cases hs; exact h
    · cases hs
  case release t =>
    split at hs
    · cases hs; exact mv _ _ _ rfl (fun _ h => nomatch h)
    · cases hs
  case drop t r =>
    split at hs
    · cases hs; exact h
    · cases hs
  case released t =>
    split at hs
    · split at hs
      · cases hs
      · cases hs; exact mv _ _ _ rfl (fun _ h => nomatch h)
    · cases hs
  case readEmpty t =>
    split at hs
    · cases hs; exact mv _ _ _ rfl (fun m hm => by split at hm <;> cases hm)
    · cases hs
  case takeNumber t =>
    split at hs
    · cases hs; exact mv _ _ _ rfl (fun m hm => by cases hm; omega)
    · cases hs
  case compare t =>
    split at hs
    · simp only [Option.some.injEq] at hs
      split at hs <;> subst hs
      · exact ld _ _
      · exact mv _ _ _ rfl (fun _ h => nomatch h)
    · cases hs
  case standBy t =>
    split at hs
    · cases hs; exact ld _ _
    · cases hs
  case passStart t =>
    split at hs
    · cases hs; exact mv _ _ _ rfl (fun _ h => nomatch h)
    · cases hs
  case passStep t =>
    split at hs
    · split at hs
      · cases hs; exact mv _ _ _ (rt _ _) (fun _ h => nomatch h)
      · cases hs; exact mv _ _ _ rfl (fun _ h => nomatch h)
    · cases hs
  case finish t =>
    split at hs
    · cases hs; exact mv _ _ _ rfl (fun _ h => nomatch h)
    · cases hs

theorem Reach.inv {s : State R} (h : Reach meets s) : RInv meets s ∧ ∀ t m, s.phase t = .numbered m → 0 < m := by
  obtain ⟨es, hr⟩ := h
  have gen : ∀ (es : List (Ev R)) (a : State R), RInv meets a → (∀ t m, a.phase t = .numbered m → 0 < m) →
      run meets a es = some s → RInv meets s ∧ ∀ t m, s.phase t = .numbered m → 0 < m := by
    intro es
    induction es with
    | nil => intro a h1 h2 hr; cases hr; exact ⟨h1, h2⟩
    | cons e es ih =>
      intro a h1 h2 hr
      simp only [run, Option.bind_eq_some_iff] at hr
      obtain ⟨b, hb, hr⟩ := hr
      exact ih b (step_inv h1 h2 hb) (numbered_pos h2 hb) hr
  exact gen es _ rinv_init (by simp [State.init]) hr

theorem blocked_true {s : State R} {w : Txn} {r : R} :
    blocked meets s.held w r = true ↔ ∃ u, u ≠ w ∧ Blocks meets s u r := by
  simp only [blocked, List.any_eq_true, Bool.and_eq_true, decide_eq_true_eq, Blocks]
  constructor
  · rintro ⟨⟨u, r'⟩, h1, h2, h3⟩; exact ⟨u, h2, r', h1, h3⟩
  · rintro ⟨u, h1, r', h2, h3⟩; exact ⟨⟨u, r'⟩, h2, h1, h3⟩

/-- C26.  In every reachable state, a waiting transaction whose request nobody blocks any more is not forgotten: some
thread is still between its release and the end of its retry round. -/
theorem C26_unblocked_waiter_will_be_retried {s : State R} (h : Reach meets s) {w : Txn} {r : R} (hw : Waiting s w r)
    (hfree : ∀ u, u ≠ w → ¬ Blocks meets s u r) : ∃ t, midRelease (s.phase t) = true := by
  obtain ⟨hi, -⟩ := h.inv
  have hb : blocked meets s.held w r = false := by
    rw [Bool.eq_false_iff]
    intro hb
    obtain ⟨u, h1, h2⟩ := blocked_true.mp hb
    exact hfree u h1 h2
  rcases hi.key w r hw.1 hw.2 hb with h' | ⟨t, ht⟩
  · obtain ⟨t, ht | ht⟩ := hi.cand h' <;> exact ⟨t, by rw [ht]; rfl⟩
  · refine ⟨t, ?_⟩
    unfold Obliged at ht
    revert ht
    cases s.phase t <;> simp [midRelease]

/-- C26.  Whenever no release is under way, every waiting transaction is blocked by a lock that another transaction
holds: no wake-up was lost. -/
theorem C26_no_lost_wakeup {s : State R} (h : Reach meets s) (hq : ∀ t, midRelease (s.phase t) = false) {w : Txn} {r : R}
    (hw : Waiting s w r) : ∃ u, u ≠ w ∧ Blocks meets s u r := by
  apply Classical.byContradiction
  intro hn
  obtain ⟨t, ht⟩ := C26_unblocked_waiter_will_be_retried h hw (fun u h1 h2 => hn ⟨u, h1, h2⟩)
  rw [hq t] at ht; cases ht

/-- C26.  A request that leaves the list of pending ones lets its thread go on: it cannot sleep on. -/
theorem C26_completed_waiter_wakes {s : State R} {w : Txn} {r : R} (hp : s.phase w = .asleep r)
    (hn : ∀ r, (w, r) ∉ s.pending) (hm : s.mutex = none) :
    ∃ s', step meets s (.wake w) = some s' ∧ s'.phase w = .idle := by
  have hl : ¬ (lookup w s.pending).isSome = true := by
    rw [lookup_isSome]
    intro hk
    obtain ⟨⟨u, r'⟩, hx, hxt⟩ := List.mem_map.mp hk
    simp only at hxt
    exact hn r' (hxt ▸ hx)
  refine ⟨s.at w .idle, ?_, by simp⟩
  simp only [step, hp, hm, if_neg hl]

/-- The step a thread in the middle of a release takes next. -/
def next (t : Txn) (held : List (Txn × R)) : Phase R → Ev R
  | .releasing =>
    match held.find? (·.1 = t) with
    | some x => .drop t x.2
    | none => .released t
  | .readEmpty => .readEmpty t
  | .takeNumber => .takeNumber t
  | .numbered _ => .compare t
  | .standBy _ => .standBy t
  | .passStart => .passStart t
  | .passAt _ => .passStep t
  | .inserting _ => .inserted t false
  | _ => .finish t

/-- C26, progress.  The retry protocol is never stuck: while a release is under way, some thread that is releasing, or
that holds the request mutex, can take its next step, and that step is not waiting again for the present leader. -/
theorem C26_release_is_never_stuck {s : State R} (h : Reach meets s) {t : Txn} (ht : midRelease (s.phase t) = true) :
    ∃ u s', (midRelease (s.phase u) = true ∨ s.mutex = some u) ∧ step meets s (next u s.held (s.phase u)) = some s' ∧
      ((∃ m, s.phase u = .standBy m) → s'.phase u = .passStart) := by
  obtain ⟨hi, -⟩ := h.inv
  -- the owner of the mutex can always go on
  have own : ∀ u, s.mutex = some u → ∃ s', step meets s (next u s.held (s.phase u)) = some s' ∧
      ((∃ m, s.phase u = .standBy m) → s'.phase u = .passStart) := by
    intro u hu
    rcases hi.owner u hu with ⟨r, hp⟩ | ⟨i, hp⟩
    · rw [hp]; simp only [next, step, hp]; exact ⟨_, rfl, fun h => by obtain ⟨m, h⟩ := h; cases h⟩
    · rw [hp]; simp only [next, step, hp]
      split
      · exact ⟨_, rfl, fun h => by obtain ⟨m, h⟩ := h; cases h⟩
      · exact ⟨_, rfl, fun h => by obtain ⟨m, h⟩ := h; cases h⟩
  -- so can a leader, or the owner of the mutex does
  have lead : ∀ u, leads (s.phase u) = true → ∃ v s', (midRelease (s.phase v) = true ∨ s.mutex = some v) ∧
      step meets s (next v s.held (s.phase v)) = some s' ∧ ((∃ m, s.phase v = .standBy m) → s'.phase v = .passStart) := by
    intro u hu
    cases hp : s.phase u with
    | passStart =>
      cases hm : s.mutex with
      | some v => obtain ⟨s', h1, h2⟩ := own v hm; exact ⟨v, s', .inr rfl, h1, h2⟩
      | none =>
        refine ⟨u, { s with mutex := some u }.at u (.passAt 0), .inl (by rw [hp]; rfl), ?_, ?_⟩
        · rw [hp]; simp only [next, step, hp, hm]
        · rintro ⟨m, h⟩; rw [hp] at h; cases h
    | passAt i => obtain ⟨s', h1, h2⟩ := own u (hi.pass u i hp); exact ⟨u, s', .inl (by rw [hp]; rfl), h1, h2⟩
    | finishing =>
      refine ⟨u, { s with running := false }.at u .idle, .inl (by rw [hp]; rfl), ?_, ?_⟩
      · rw [hp]; simp only [next, step, hp]
      · rintro ⟨m, h⟩; rw [hp] at h; cases h
    | _ => rw [hp] at hu; cases hu
  cases hp : s.phase t with
  | releasing =>
    cases hf : s.held.find? (·.1 = t) with
    | some x =>
      exact ⟨t, _, .inl ht, by rw [hp]; simp only [next, hf, step, hp]; rfl, fun h => by obtain ⟨m, h⟩ := h; rw [hp] at h; cases h⟩
    | none =>
      have : ¬ (s.held.any fun x => decide (x.1 = t)) = true := by
        rw [List.any_eq_true]
        rintro ⟨x, hx, hxt⟩
        have := List.find?_eq_none.mp hf x hx
        exact this hxt
      exact ⟨t, s.at t .readEmpty, .inl ht, by rw [hp]; simp only [next, hf, step, hp, if_neg this],
        fun h => by obtain ⟨m, h⟩ := h; rw [hp] at h; cases h⟩
  | readEmpty =>
    exact ⟨t, _, .inl ht, by rw [hp]; simp only [next, step, hp]; rfl, fun h => by obtain ⟨m, h⟩ := h; rw [hp] at h; cases h⟩
  | takeNumber =>
    exact ⟨t, _, .inl ht, by rw [hp]; simp only [next, step, hp]; rfl, fun h => by obtain ⟨m, h⟩ := h; rw [hp] at h; cases h⟩
  | numbered m =>
    exact ⟨t, _, .inl ht, by rw [hp]; simp only [next, step, hp]; rfl, fun h => by obtain ⟨m, h⟩ := h; rw [hp] at h; cases h⟩
  | standBy m =>
    cases hr : s.running with
    | true => obtain ⟨u, hu⟩ := hi.leader hr; exact lead u hu
    | false =>
      refine ⟨t, s.lead t m, .inl ht, by rw [hp]; simp only [next, step, hp], fun _ => ?_⟩
      unfold State.lead; simp [hr]
  | passStart => exact lead t (by rw [hp]; rfl)
  | passAt i => exact lead t (by rw [hp]; rfl)
  | finishing => exact lead t (by rw [hp]; rfl)
  | idle => rw [hp] at ht; cases ht
  | refused r => rw [hp] at ht; cases ht
  | inserting r => rw [hp] at ht; cases ht
  | queued r => rw [hp] at ht; cases ht
  | asleep r => rw [hp] at ht; cases ht

/-- C26, progress.  A retry round ends: each of its steps brings the leader nearer to the end of the list, and only
the leader can change that list meanwhile. -/
theorem C26_round_is_finite {s s' : State R} (h : Reach meets s) {t : Txn} {i : Nat} (hp : s.phase t = .passAt i) {e : Ev R}
    (hs : step meets s e = some s') :
    (e ≠ .passStep t → s'.pending = s.pending ∧ s'.phase t = .passAt i) ∧
    (e = .passStep t → s'.phase t = .finishing ∨ ∃ i', s'.phase t = .passAt i' ∧
      s'.pending.length - i' < s.pending.length - i) := by
  obtain ⟨hi, -⟩ := h.inv
  have hm := hi.pass t i hp
  have stay : ∀ (x : State R) (u : Txn) (p : Phase R), x.phase = s.phase → x.pending = s.pending → u ≠ t →
      (x.at u p).pending = s.pending ∧ (x.at u p).phase t = .passAt i := by
    intro x u p h1 h2 h3
    simp [h1, h2, hp, Ne.symm h3]
  have nt : ∀ {u : Txn} {p : Phase R}, s.phase u = p → (∀ k, p ≠ .passAt k) → u ≠ t := by
    rintro u p hu hk rfl; exact hk i (hu ▸ hp)
  have ld : ∀ u m, u ≠ t → (s.lead u m).pending = s.pending ∧ (s.lead u m).phase t = .passAt i := by
    intro u m hu
    unfold State.lead
    split
    · exact stay _ _ _ rfl rfl hu
    · exact stay _ _ _ rfl rfl hu
  refine ⟨fun hne => ?_, ?_⟩
  · cases e <;> simp only [step] at hs
    case request u r =>
      split at hs
      · rename_i hu
        simp only [Option.some.injEq] at hs
        split at hs <;> subst hs
        · exact stay _ _ _ rfl rfl (nt hu (fun _ h => nomatch h))
        · exact ⟨rfl, hp⟩
      · cases hs
    case insert u =>
      split at hs
      · rename_i hmm; rw [hm] at hmm; cases hmm
      · cases hs
    case inserted u d =>
      split at hs
      · rename_i r hu
        have := hi.ins u r hu
        rw [hm] at this; cases this
        rw [hp] at hu; cases hu
      · cases hs
    case enterWait u =>
      split at hs
      · rename_i hmm; rw [hm] at hmm; cases hmm
      · cases hs
    case wake u =>
      split at hs
      · rename_i hmm; rw [hm] at hmm; cases hmm
      · cases hs
    case giveUp u =>
      split at hs
      · rename_i hmm; rw [hm] at hmm; cases hmm
      · cases hs
    case kill u =>
      split at hs
      · rename_i hmm; rw [hm] at hmm; cases hmm
      · cases hs
    case escalate u r =>
      split at hs
      · cases hs; exact ⟨rfl, hp⟩
      · cases hs
    case release u =>
      split at hs
      · rename_i hu; cases hs; exact stay _ _ _ rfl rfl (nt hu (fun _ h => nomatch h))
      · cases hs
    case drop u r =>
      split at hs
      · cases hs; exact ⟨rfl, hp⟩
      · cases hs
    case released u =>
      split at hs
      · rename_i hu
        split at hs
        · cases hs
        · cases hs; exact stay _ _ _ rfl rfl (nt hu (fun _ h => nomatch h))
      · cases hs
    case readEmpty u =>
      split at hs
      · rename_i hu; cases hs; exact stay _ _ _ rfl rfl (nt hu (fun _ h => nomatch h))
      · cases hs
    case takeNumber u =>
      split at hs
      · rename_i hu; cases hs; exact stay _ _ _ rfl rfl (nt hu (fun _ h => nomatch h))
      · cases hs
    case compare u =>
      split at hs
      · rename_i m hu
        simp only [Option.some.injEq] at hs
        split at hs <;> subst hs
        · exact ld _ _ (nt hu (fun _ h => nomatch h))
        · exact stay _ _ _ rfl rfl (nt hu (fun _ h => nomatch h))
      · cases hs
    case standBy u =>
      split at hs
      · rename_i m hu; cases hs; exact ld _ _ (nt hu (fun _ h => nomatch h))
      · cases hs
    case passStart u =>
      split at hs
      · rename_i hmm; rw [hm] at hmm; cases hmm
      · cases hs
    case passStep u =>
      split at hs
      · rename_i k hu
        have := hi.pass u k hu
        rw [hm] at this; cases this
        exact absurd rfl hne
      · cases hs
    case finish u =>
      split at hs
      · rename_i hu; cases hs; exact stay _ _ _ rfl rfl (nt hu (fun _ h => nomatch h))
      · cases hs
  · rintro rfl
    simp only [step, hp] at hs
    split at hs
    · rename_i q hq
      obtain ⟨hlt, hqe⟩ := List.getElem?_eq_some_iff.mp hq
      cases hs
      refine .inr ⟨_, if_pos rfl, ?_⟩
      simp only [State.retry]
      split
      · simp only [at_pending, Bool.false_eq_true, if_false]; omega
      · simp only [at_pending, if_true, remove_pending]
        have : (s.pending.filter (fun x => decide (x.1 ≠ q.1))).length < s.pending.length := by
          rw [List.length_filter_lt_length_iff_exists]
          exact ⟨q, List.mem_of_getElem? hq, by simp⟩
        omega
    · cases hs; exact .inl (if_pos rfl)

/-! ### A run with two releases at once -/

/-- Equal numbers conflict. -/
def same (a b : Nat) : Bool := a == b

/-- 1 and 2 hold a lock each; 3 and 4 wait for them.  1 leads a round while 2 releases and takes the next number; 5, which
releases as well, leaves its number to 2.  When 1 is done, 2 leads the round that grants 4. -/
def sampleRetry : List (Ev Nat) :=
  [.request 1 10, .request 2 20, .request 5 30,
   .request 3 10, .insert 3, .inserted 3 false, .enterWait 3,
   .request 4 20, .insert 4, .inserted 4 false, .enterWait 4,
   .release 1, .drop 1 10, .released 1, .readEmpty 1, .takeNumber 1, .compare 1, .passStart 1, .passStep 1, .passStep 1,
   .release 2, .drop 2 20, .released 2, .readEmpty 2, .takeNumber 2, .compare 2,
   .release 5, .drop 5 30, .released 5, .readEmpty 5, .takeNumber 5, .compare 5,
   .passStep 1, .finish 1]

/-- In the middle of it: 4 sleeps unblocked and 2 is the thread that will retry it; 3 has been granted. -/
example : ∃ s : State Nat, Reach same s ∧ Waiting s 4 20 ∧ (∀ u, u ≠ 4 → ¬ Blocks same s u 20) ∧ s.phase 2 = .standBy 2 ∧
    s.phase 5 = .idle ∧ s.held = [(3, 10)] := by
  refine ⟨_, ⟨sampleRetry, rfl⟩, ⟨rfl, ?_⟩, ?_, rfl, rfl, rfl⟩
  · exact List.mem_cons_self
  · rintro u - ⟨r', hm, he⟩
    have hm : (u, r') ∈ [(3, 10)] := hm
    simp only [List.mem_singleton, Prod.mk.injEq] at hm
    obtain ⟨rfl, rfl⟩ := hm
    cases he

/-- After the second round nothing is under way and 4 has its lock. -/
example : ∃ s : State Nat, run same State.init (sampleRetry ++
      [.standBy 2, .passStart 2, .passStep 2, .passStep 2, .finish 2, .wake 3, .wake 4]) = some s ∧
    s.held = [(4, 20), (3, 10)] ∧ s.pending = [] ∧ s.phase 4 = .idle ∧ s.phase 2 = .idle :=
  ⟨_, rfl, rfl, rfl, rfl, rfl⟩

/-- A state that meets the hypotheses of `C26_no_lost_wakeup`: nobody releases, 3 and 4 wait. -/
example : ∃ s : State Nat, run same State.init (sampleRetry.take 11) = some s ∧ Waiting s 3 10 ∧ Waiting s 4 20 ∧
    ∀ t, midRelease (s.phase t) = false := by
  refine ⟨_, rfl, ⟨rfl, List.mem_cons_self⟩, ⟨rfl, List.mem_cons_of_mem _ List.mem_cons_self⟩, ?_⟩
  intro t
  show midRelease (if t = 4 then _ else if t = 4 then _ else if t = 4 then _ else if t = 4 then _ else if t = 3 then _ else if t = 3 then _
    else if t = 3 then _ else if t = 3 then _ else Phase.idle) = false
  repeat' split
  all_goals rfl

end Verif.Lt.Retry
