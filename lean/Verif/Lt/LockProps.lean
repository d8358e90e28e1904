import Verif.Lt.LockStep
import Verif.Ft.BasementProps

/-!
C20-C24, C27, C45: row locks.

A lock endpoint is a key or one of the two infinities (`Pt`); `Pt.cmp cmp` orders them by the dictionary's
comparator.  `tableLocks s.lt` is what the lock table stores: the ranges in the single-transaction buffer while that
optimisation is on, the ranges of the tree otherwise.  `Locks s u p` says that `u` holds a lock on the point `p`.
`Reach base s` ranges over all finite sequences of requests, notes, escalations and releases by any transactions.
-/
namespace Verif.Lt
open Std Verif.Codec

variable {cfg : Cfg} [TransCmp cfg.cmp]

/-- `u` holds a lock on the point `p`: some stored range of `u` has its ends on both sides of `p`. -/
def Locks (s : Sys cfg) (u : Txn) (p : Pt) : Prop :=
  ∃ x ∈ tableLocks s.lt, x.2 = u ∧ (Pt.cmp cfg.cmp x.1.left p).isLE = true ∧ (Pt.cmp cfg.cmp p x.1.right).isLE = true

/-- The point lies between `l` and `r`. -/
def Within (cfg : Cfg) (l p r : Pt) : Prop := (Pt.cmp cfg.cmp l p).isLE = true ∧ (Pt.cmp cfg.cmp p r).isLE = true

/-- States reached from an empty table by any events whose requests are for real transactions and lockable ranges. -/
def Reach (base : Nat) (s : Sys cfg) : Prop := ∃ es rs, (∀ e ∈ es, EvOk e) ∧ run (Sys.init base) es = some (s, rs)

theorem reach_run {base : Nat} {s s' : Sys cfg} (h : Reach base s) {es : List (Ev cfg)} {rs : List Result}
    (he : ∀ e ∈ es, EvOk e) (hr : run s es = some (s', rs)) : Reach base s' := by
  obtain ⟨es0, rs0, he0, hr0⟩ := h
  have app : ∀ (es0 : List (Ev cfg)) (a : Sys cfg) (rs0 : List Result), run a es0 = some (s, rs0) →
      run a (es0 ++ es) = some (s', rs0 ++ rs) := by
    intro es0
    induction es0 with
    | nil => intro a rs0 h; simp only [run, Option.some.injEq, Prod.mk.injEq] at h; obtain ⟨rfl, rfl⟩ := h; exact hr
    | cons e es0 ih =>
      intro a rs0 h
      simp only [run, Option.bind_eq_some_iff, Option.map_eq_some_iff] at h
      obtain ⟨⟨b, r⟩, h1, ⟨c, rs1⟩, h2, h3⟩ := h
      simp only [Prod.mk.injEq] at h3
      obtain ⟨rfl, rfl⟩ := h3
      simp only [List.cons_append, run, h1, Option.bind_some, ih b rs1 h2, Option.map_some]
  refine ⟨es0 ++ es, rs0 ++ rs, ?_, app es0 _ _ hr0⟩
  intro e hm
  rcases List.mem_append.mp hm with h | h
  · exact he0 e h
  · exact he e h

theorem Reach.inv {base : Nat} {s : Sys cfg} (h : Reach base s) : Inv base s := by
  obtain ⟨es, rs, he, hr⟩ := h
  obtain ⟨s', rs', e1, e2⟩ := run_spec es _ (inv_init base) he
  rw [hr] at e1
  cases e1; exact e2

omit [TransCmp cfg.cmp] in
theorem locks_iff {s : Sys cfg} {u : Txn} {p : Pt} : Locks s u p ↔ Owns (tableLocks s.lt) u p := Iff.rfl

/-! ### A sample system -/

/-- Bytewise keys, 96 bytes per lock, 64 KiB of lock memory. -/
def sampleCfg : Cfg := ⟨Verif.Ft.memcmp, 96, 65536⟩
instance : TransCmp sampleCfg.cmp := inferInstanceAs (TransCmp Verif.Ft.memcmp)

/-- Two transactions; the first runs under the optimisation until the second asks for a lock; then both get locks,
one request is refused, escalation merges, and the first transaction releases everything. -/
def sampleRun : List (Ev sampleCfg) :=
  [.acquire 5 (.key [1]) (.key [2]) false, .note 5 false,
   .acquire 5 (.key [2]) (.key [3]) false, .note 5 false,
   .acquire 7 (.key [9]) .posInf false, .note 7 false,
   .acquire 5 (.key [5]) (.key [5]) true, .note 5 true,
   .acquire 7 (.key [3, 0]) (.key [6]) false,
   .acquire 7 .negInf (.key [1]) false,
   .escalate (fun _ => false) (fun _ => false)]

/-- The same, then transaction 5 releases. -/
def sampleRelease : List (Ev sampleCfg) :=
  sampleRun ++ [.retire 5, .relStart 5, .relStep 5, .relEnd 5]

theorem sample_ok : ∀ e ∈ sampleRelease, EvOk e := by
  intro e he
  have key : ∀ l r : Pt, Pt.size l < 65536 → Pt.size r < 65536 → (Pt.cmp Verif.Ft.memcmp l r).isLE = true → r ≠ .negInf →
      r ≠ .key [] → Lockable (mkRange (cfg := sampleCfg) l r) := fun l r h1 h2 h3 h4 h5 => ⟨h1, h2, h3, h4, fun h => absurd h h5⟩
  simp only [sampleRelease, sampleRun, List.cons_append, List.nil_append, List.mem_cons, List.not_mem_nil, or_false] at he
  rcases he with rfl | rfl | rfl | rfl | rfl | rfl | rfl | rfl | rfl | rfl | rfl | rfl | rfl | rfl | rfl <;>
    first
    | exact trivial
    | exact ⟨by decide, key _ _ (by decide) (by decide) (by decide) (by decide) (by decide)⟩

/-- What the sample run answers: five grants, two refusals naming the holder; then a merged lock for 5. -/
theorem sample_run : (run (Sys.init 1000 : Sys sampleCfg) sampleRun).map
    (fun q => (q.2, tableLocks q.1.lt, q.1.lt.mem)) =
    some ([.granted, .none, .granted, .none, .granted, .none, .granted, .none, .notGranted [5], .notGranted [5], .none],
      [(⟨Pt.key [1], Pt.key [5]⟩, 5), (⟨Pt.key [9], Pt.posInf⟩, 7)], 1214) := by decide +kernel

theorem sample_release : (run (Sys.init 1000 : Sys sampleCfg) sampleRelease).map
    (fun q => (tableLocks q.1.lt, q.1.lt.mem, q.1.releasing.length)) =
    some ([(⟨Pt.key [9], Pt.posInf⟩, 7)], 1106, 0) := by decide +kernel

/-- The state after the sample run exists and is reachable. -/
theorem sample_reach : ∃ s : Sys sampleCfg, Reach 1000 s ∧
    tableLocks s.lt = [(⟨Pt.key [1], Pt.key [5]⟩, 5), (⟨Pt.key [9], Pt.posInf⟩, 7)] ∧ s.lt.mem = 1214 := by
  obtain ⟨q, hq, h⟩ := Option.map_eq_some_iff.mp sample_run
  simp only [Prod.mk.injEq] at h
  refine ⟨q.1, ⟨sampleRun, q.2, fun e he => sample_ok e ?_, hq⟩, h.2.1, h.2.2⟩
  simp only [sampleRelease, List.mem_append]; exact .inl he

/-! ### C20: exclusion -/

/-- C20.  In every reachable state, a point is locked by at most one transaction. -/
theorem C20_no_point_is_locked_twice {base : Nat} {s : Sys cfg} (h : Reach base s) {u v : Txn} {p : Pt}
    (hu : Locks s u p) (hv : Locks s v p) : u = v := h.inv.table.disjoint hu hv

/-- C20, for requests: while `u` holds a lock on any point of the range, no other transaction is granted it, with or
without the memory check. -/
theorem C20_locked_range_is_not_granted {base : Nat} {s s' : Sys cfg} (h : Reach base s) {t u : Txn} {l r p : Pt}
    (ht : t ≠ 0) (hr : Lockable (mkRange (cfg := cfg) l r)) (hne : u ≠ t) (hu : Locks s u p) (hp : Within cfg l p r)
    {e : Ev cfg} (he : (∃ sp, e = .acquire t l r sp) ∨ ∃ sp big a b, e = .tryAcquire t l r sp big a b) :
    step s e ≠ some (s', .granted) := by
  intro hs
  have hok : EvOk e := by rcases he with ⟨sp, rfl⟩ | ⟨sp, big, a, b, rfl⟩ <;> exact ⟨ht, hr⟩
  obtain ⟨s1, res, e1, -, e3⟩ := step_spec h.inv e hok
  rw [hs] at e1
  simp only [Option.some.injEq, Prod.mk.injEq] at e1
  obtain ⟨rfl, rfl⟩ := e1
  rcases he with ⟨sp, rfl⟩ | ⟨sp, big, a, b, rfl⟩
  · rcases e3 with ⟨h', -⟩ | ⟨h', -⟩ | ⟨-, -, cs, h', -⟩
    · cases h'
    · exact h' u ⟨hne, p, hp, hu⟩
    · cases h'
  · rcases e3 with ⟨h', -⟩ | ⟨h', -⟩ | ⟨L1, hc, ⟨h', -⟩ | ⟨-, -, cs, h', -⟩⟩
    · cases h'
    · cases h'
    · obtain ⟨x, hx, hxu, hxp⟩ := hu
      obtain ⟨y, hy, hyx, hcov⟩ := hc.old x hx
      exact h' u ⟨hne, p, hp, y, hy, hyx.trans hxu, hcov.has hxp⟩
    · cases h'

example : ∃ s : Sys sampleCfg, Reach 1000 s ∧ Locks s 5 (.key [3, 7]) ∧ Locks s 7 .posInf := by
  obtain ⟨s, h, ht, -⟩ := sample_reach
  exact ⟨s, h, by unfold Locks; rw [ht]; exact ⟨_, List.mem_cons_self, rfl, by decide, by decide⟩,
    by unfold Locks; rw [ht]; exact ⟨_, List.mem_cons_of_mem _ List.mem_cons_self, rfl, by decide, by decide⟩⟩

/-! ### C21: a granted lock stays until its owner releases -/

theorem step_keeps {base : Nat} {s s' : Sys cfg} (h : Inv base s) {e : Ev cfg} (he : EvOk e) {res : Result}
    (hs : step s e = some (s', res)) {u : Txn} (hu : e.releases ≠ some u) {p : Pt} (hl : Locks s u p) : Locks s' u p := by
  obtain ⟨s1, r1, e1, -, e3⟩ := step_spec h e he
  rw [hs] at e1
  simp only [Option.some.injEq, Prod.mk.injEq] at e1
  obtain ⟨rfl, rfl⟩ := e1
  have cover : ∀ {L L' : List (Lock cfg)}, (∀ x ∈ L, ∃ y ∈ L', y.2 = x.2 ∧ y.1.Covers x.1) → Owns L u p → Owns L' u p := by
    rintro L L' hc ⟨x, hx, hxu, hxp⟩
    obtain ⟨y, hy, hyx, hcov⟩ := hc x hx
    exact ⟨y, hy, hyx.trans hxu, hcov.has hxp⟩
  have outcome : ∀ {L L' : List (Lock cfg)} {t range res}, Outcome L L' t range res → Owns L u p → Owns L' u p := by
    rintro L L' t range res (⟨-, -, g⟩ | ⟨-, sl, -⟩) ho
    · exact cover g.old ho
    · exact cover sl.old ho
  cases e with
  | acquire t l r sp =>
    rcases e3 with ⟨-, h'⟩ | h'
    · unfold Locks; rw [h']; exact hl
    · exact outcome h' hl
  | tryAcquire t l r sp big a b =>
    rcases e3 with ⟨-, h'⟩ | ⟨-, h'⟩ | ⟨L1, h1, h2⟩
    · unfold Locks; rw [h']; exact hl
    · exact cover h'.old hl
    · exact outcome h2 (cover h1.old hl)
  | note t sp => have h' : _ = _ := e3; unfold Locks; rw [h']; exact hl
  | escalate a b => exact cover (Coarser.old e3) hl
  | retire t => have h' : _ = _ := e3; unfold Locks; rw [h']; exact hl
  | relEnd t => have h' : _ = _ := e3; unfold Locks; rw [h']; exact hl
  | relStart t =>
    obtain ⟨x, hx, hxu, hxp⟩ := hl
    exact ⟨x, e3.2 x hx (fun he => hu (by simp [Ev.releases, ← he, hxu])), hxu, hxp⟩
  | relStep t =>
    obtain ⟨x, hx, hxu, hxp⟩ := hl
    exact ⟨x, e3.2 x hx (fun he => hu (by simp [Ev.releases, ← he, hxu])), hxu, hxp⟩

/-- C21.  Whatever others do, and however often locks are escalated, a point a transaction has locked stays locked by
it until it runs its own release. -/
theorem C21_lock_stays_until_released {base : Nat} {s s' : Sys cfg} (h : Reach base s) {es : List (Ev cfg)}
    {rs : List Result} (he : ∀ e ∈ es, EvOk e) (hr : run s es = some (s', rs)) {u : Txn}
    (hu : ∀ e ∈ es, e.releases ≠ some u) {p : Pt} (hl : Locks s u p) : Locks s' u p := by
  have hi := h.inv
  clear h
  induction es generalizing s rs with
  | nil => simp only [run, Option.some.injEq, Prod.mk.injEq] at hr; obtain ⟨rfl, -⟩ := hr; exact hl
  | cons e es ih =>
    obtain ⟨s1, r1, e1, e2, -⟩ := step_spec hi e (he e (by simp))
    simp only [run, e1, Option.bind_some, Option.map_eq_some_iff] at hr
    obtain ⟨⟨a, b⟩, hr, hab⟩ := hr
    simp only [Prod.mk.injEq] at hab
    obtain ⟨rfl, rfl⟩ := hab
    exact ih (fun x hx => he x (by simp [hx])) hr (fun x hx => hu x (by simp [hx]))
      (step_keeps hi (he e (by simp)) e1 (hu e (by simp)) hl) e2

/-- C21, from the grant on: every point of a granted range is locked by the requester after the grant and after any
further events in which the requester does not release. -/
theorem C21_granted_range_is_locked {base : Nat} {s s1 s2 : Sys cfg} (h : Reach base s) {t : Txn} {l r : Pt}
    (ht : t ≠ 0) (hr : Lockable (mkRange (cfg := cfg) l r)) {e : Ev cfg}
    (he : (∃ sp, e = .acquire t l r sp) ∨ ∃ sp big a b, e = .tryAcquire t l r sp big a b)
    (hg : step s e = some (s1, .granted)) {es : List (Ev cfg)} {rs : List Result} (hes : ∀ e ∈ es, EvOk e)
    (hrun : run s1 es = some (s2, rs)) (hno : ∀ e ∈ es, e.releases ≠ some t) {p : Pt} (hp : Within cfg l p r) :
    Locks s2 t p := by
  have hok : EvOk e := by rcases he with ⟨sp, rfl⟩ | ⟨sp, big, a, b, rfl⟩ <;> exact ⟨ht, hr⟩
  obtain ⟨s', res, e1, -, e3⟩ := step_spec h.inv e hok
  rw [hg] at e1
  simp only [Option.some.injEq, Prod.mk.injEq] at e1
  obtain ⟨rfl, rfl⟩ := e1
  have h1 : Reach base s1 := reach_run h (es := [e]) (rs := [.granted]) (by simpa using hok) (by simp [run, hg])
  refine C21_lock_stays_until_released h1 hes hrun hno ?_
  rcases he with ⟨sp, rfl⟩ | ⟨sp, big, a, b, rfl⟩
  · rcases e3 with ⟨h', -⟩ | ⟨-, -, g⟩ | ⟨-, -, cs, h', -⟩
    · cases h'
    · exact (g.owns t p).mpr (.inr ⟨rfl, hp⟩)
    · cases h'
  · rcases e3 with ⟨h', -⟩ | ⟨h', -⟩ | ⟨L1, -, ⟨-, -, g⟩ | ⟨-, -, cs, h', -⟩⟩
    · cases h'
    · cases h'
    · exact (g.owns t p).mpr (.inr ⟨rfl, hp⟩)
    · cases h'

/-- The sample run: 5 is granted [1],[2] first; ten more events follow in which it does not release. -/
example : sampleRun.length = 11 ∧ ∀ e ∈ sampleRun.tail, e.releases ≠ some 5 := by
  refine ⟨rfl, ?_⟩
  intro e he
  simp only [sampleRun, List.tail_cons, List.mem_cons, List.not_mem_nil, or_false] at he
  rcases he with rfl | rfl | rfl | rfl | rfl | rfl | rfl | rfl | rfl | rfl <;> simp [Ev.releases]

/-! ### C22: requests fail exactly on conflict -/

/-- C22.  No request, note, escalation or release ever trips an assertion: in every reachable state every event has
a result. -/
theorem C22_no_event_fails {base : Nat} {s : Sys cfg} (h : Reach base s) {e : Ev cfg} (he : EvOk e) :
    ∃ s' r, step s e = some (s', r) ∧ Reach base s' := by
  obtain ⟨s', r, e1, -, -⟩ := step_spec h.inv e he
  exact ⟨s', r, e1, reach_run h (es := [e]) (rs := [r]) (by simpa using he) (by simp [run, e1])⟩

/-- `u` is another transaction holding a lock on some point of `[l, r]`. -/
def Conflicts (s : Sys cfg) (t u : Txn) (l r : Pt) : Prop := u ≠ t ∧ ∃ p, Within cfg l p r ∧ Locks s u p

/-- C22.  A request by a transaction that is between requests is granted exactly when no other transaction holds a
lock on a point of the range.  If it is refused, the answer lists exactly the transactions in the way, in ascending
order and once each, and nobody's locks change.  If it is granted, exactly the points of the range are added to the
requester's. -/
theorem C22_granted_iff_no_conflict {base : Nat} {s : Sys cfg} (h : Reach base s) {t : Txn} {l r : Pt} (ht : t ≠ 0)
    (hr : Lockable (mkRange (cfg := cfg) l r)) (hidle : idle s t = true) (sp : Bool) :
    ∃ s' res, step s (.acquire t l r sp) = some (s', res) ∧
      (res = .granted ↔ ∀ u, ¬ Conflicts s t u l r) ∧
      (res = .granted → ∀ u p, Locks s' u p ↔ Locks s u p ∨ (u = t ∧ Within cfg l p r)) ∧
      (res ≠ .granted → (∃ cs, res = .notGranted cs ∧ cs.Pairwise (· < ·) ∧ ∀ u, u ∈ cs ↔ Conflicts s t u l r) ∧
        ∀ u p, Locks s' u p ↔ Locks s u p) := by
  obtain ⟨s', res, e1, -, e3⟩ := doAcquire_inv h.inv ht hr sp hidle
  refine ⟨s', res, by simp only [step, hidle, if_true]; exact e1, ?_⟩
  rcases e3 with ⟨h1, rfl, g⟩ | ⟨⟨u, hu⟩, sl, cs, rfl, h2, h3⟩
  · exact ⟨⟨fun _ => h1, fun _ => rfl⟩, fun _ => g.owns, fun h => absurd rfl h⟩
  · refine ⟨⟨fun h => (nomatch h), fun h => absurd hu (h u)⟩, fun h => (nomatch h), fun _ => ⟨⟨cs, rfl, h2, h3⟩, sl.owns⟩⟩

/-- C22, through the memory check: below half of the lock memory limit the checked request is the plain one. -/
theorem C22_memory_check_is_transparent_below_half (s : Sys cfg) (t : Txn) (l r : Pt) (sp big : Bool) (a b)
    (hm : s.lt.mem < cfg.maxMem / 2) :
    step s (.tryAcquire t l r sp big a b) = step s (.acquire t l r sp) := by
  have h1 : ¬ (big = true ∧ cfg.maxMem / 2 ≤ s.lt.mem) := fun h => by omega
  have h2 : ¬ ((¬ (false = true)) ∧ cfg.maxMem ≤ s.lt.mem) := fun h => by omega
  simp only [step, checkConstraints, if_neg h1, Option.bind_some, if_neg h2]
  simp

/-- C22, above the threshold: a refusal names only transactions that hold locks, and if escalation did not run out
of memory, every transaction that was in the way before is named. -/
theorem C22_refusal_after_escalation {base : Nat} {s s' : Sys cfg} (h : Reach base s) {t : Txn} {l r : Pt} (ht : t ≠ 0)
    (hr : Lockable (mkRange (cfg := cfg) l r)) {sp big : Bool} {a b} {cs : List Txn}
    (hs : step s (.tryAcquire t l r sp big a b) = some (s', .notGranted cs)) :
    cs ≠ [] ∧ (∀ u ∈ cs, u ≠ t ∧ ∃ p, Locks s u p) ∧ ∀ u, Conflicts s t u l r → u ∈ cs := by
  obtain ⟨s1, res, e1, -, e3⟩ := step_spec h.inv (.tryAcquire t l r sp big a b) ⟨ht, hr⟩
  rw [hs] at e1
  simp only [Option.some.injEq, Prod.mk.injEq] at e1
  obtain ⟨rfl, rfl⟩ := e1
  rcases e3 with ⟨h', -⟩ | ⟨h', -⟩ | ⟨L1, hc, ⟨-, h', -⟩ | ⟨⟨w, hw⟩, -, cs', h', -, hcs⟩⟩
  · cases h'
  · cases h'
  · cases h'
  · cases h'
    refine ⟨fun h => by simpa [h] using (hcs w).mpr hw, ?_, ?_⟩
    · intro u hu
      obtain ⟨hne, p, -, x, hx, hxu, -⟩ := (hcs u).mp hu
      obtain ⟨y, hy, hyx, -⟩ := hc.from_ x hx
      have hv := (h.inv.table.lockable y hy).valid
      exact ⟨hne, y.1.left, y, hy, hyx.trans hxu, le_refl (α := Point cfg.cmp) _, hv⟩
    · rintro u ⟨hne, p, hp, x, hx, hxu, hxp⟩
      obtain ⟨y, hy, hyx, hcov⟩ := hc.old x hx
      exact (hcs u).mpr ⟨hne, p, hp, y, hy, hyx.trans hxu, hcov.has hxp⟩

/-- The sample run has a refusal naming exactly the holder although the requester holds locks itself. -/
example : (run (Sys.init 1000 : Sys sampleCfg) (sampleRun.take 9)).map (fun q => q.2.getLast?) =
    some (some (.notGranted [5])) := by decide +kernel

/-! ### C23: release -/

/-- C23.  Steps of a release by `t` leave every other transaction's locks as they were and give `t` none. -/
theorem C23_release_leaves_others_alone {base : Nat} {s s' : Sys cfg} (h : Reach base s) {t : Txn} {e : Ev cfg}
    (he : e = .retire t ∨ e = .relStart t ∨ e = .relStep t ∨ e = .relEnd t) {res : Result}
    (hs : step s e = some (s', res)) :
    (∀ u p, u ≠ t → (Locks s' u p ↔ Locks s u p)) ∧ ∀ p, Locks s' t p → Locks s t p := by
  have hok : EvOk e := by rcases he with rfl | rfl | rfl | rfl <;> trivial
  obtain ⟨s1, r1, e1, -, e3⟩ := step_spec h.inv e hok
  rw [hs] at e1
  simp only [Option.some.injEq, Prod.mk.injEq] at e1
  obtain ⟨rfl, rfl⟩ := e1
  have eq : tableLocks s'.lt = tableLocks s.lt →
      (∀ u p, u ≠ t → (Locks s' u p ↔ Locks s u p)) ∧ ∀ p, Locks s' t p → Locks s t p := by
    intro h'; unfold Locks; rw [h']; exact ⟨fun _ _ _ => .rfl, fun _ h => h⟩
  have sub : ((tableLocks s'.lt).Sublist (tableLocks s.lt) ∧ ∀ y ∈ tableLocks s.lt, y.2 ≠ t → y ∈ tableLocks s'.lt) →
      (∀ u p, u ≠ t → (Locks s' u p ↔ Locks s u p)) ∧ ∀ p, Locks s' t p → Locks s t p := by
    rintro ⟨h1, h2⟩
    refine ⟨fun u p hu => ⟨?_, ?_⟩, ?_⟩
    · rintro ⟨x, hx, hh⟩; exact ⟨x, h1.subset hx, hh⟩
    · rintro ⟨x, hx, rfl, hh⟩; exact ⟨x, h2 x hx hu, rfl, hh⟩
    · rintro p ⟨x, hx, hh⟩; exact ⟨x, h1.subset hx, hh⟩
  rcases he with rfl | rfl | rfl | rfl
  · exact eq e3
  · exact sub e3
  · exact sub e3
  · exact eq e3

/-- C23.  A transaction with no recorded range, no ungranted note and no release under way holds no lock: locks never
outlive the transaction's record of them. -/
theorem C23_no_record_no_lock {base : Nat} {s : Sys cfg} (h : Reach base s) {t : Txn}
    (h1 : t ∉ s.bufs.map (·.1)) (h2 : t ∉ s.pending.map (·.1)) (h3 : t ∉ s.releasing.map (·.txn)) (p : Pt) :
    ¬ Locks s t p := by
  rintro ⟨x, hx, rfl, -⟩
  obtain ⟨y, hy, hyx, -⟩ := h.inv.backed x hx
  rcases claimed_key hy with h' | h' | h' <;> rw [hyx] at h'
  · exact h1 h'
  · exact h2 h'
  · exact h3 h'

/-- The release of `t`: leave the transaction manager, start, walk over `n` recorded ranges, finish. -/
def releaseAll (t : Txn) (n : Nat) : List (Ev cfg) :=
  .retire t :: .relStart t :: (List.replicate n (.relStep t) ++ [.relEnd t])

theorem releaseAll_ok (t : Txn) (n : Nat) : ∀ e ∈ (releaseAll t n : List (Ev cfg)), EvOk e := by
  intro e he
  simp only [releaseAll, List.mem_cons, List.mem_append, List.mem_replicate, List.not_mem_nil, or_false] at he
  rcases he with rfl | rfl | ⟨-, rfl⟩ | rfl <;> trivial

theorem rel_steps {base : Nat} {t : Txn} (rest : List (Pt × Pt)) : ∀ {s : Sys cfg} {b v rs0}, Inv base s →
    s.releasing = ⟨t, true, rest, b, v⟩ :: rs0 → (∀ r ∈ rs0, r.txn ≠ t) → ∃ s' rs,
    run s (List.replicate rest.length (.relStep t) ++ [.relEnd t]) = some (s', rs) ∧ Inv base s' ∧
      s'.releasing = rs0 ∧ s'.bufs = s.bufs ∧ s'.pending = s.pending := by
  induction rest with
  | nil =>
    intro s b v rs0 hi hr hne
    have hf : findReleasing t s.releasing = some ⟨t, true, [], b, v⟩ := by rw [hr]; simp [findReleasing]
    obtain ⟨s', res, e1, e2, -⟩ := step_spec hi (.relEnd t) trivial
    refine ⟨s', [res], by simp [run, e1], e2, ?_⟩
    simp only [step, hf, Option.map_eq_some_iff, Prod.mk.injEq] at e1
    obtain ⟨m, -, rfl, -⟩ := e1
    refine ⟨?_, rfl, rfl⟩
    show s.releasing.filter _ = rs0
    rw [hr, List.filter_cons]
    simp only [ne_eq, not_true_eq_false, decide_false, Bool.false_eq_true, if_false]
    exact List.filter_eq_self.mpr fun r h => by simpa using hne r h
  | cons p ps ih =>
    intro s b v rs0 hi hr hne
    have hf : findReleasing t s.releasing = some ⟨t, true, p :: ps, b, v⟩ := by rw [hr]; simp [findReleasing]
    obtain ⟨s', res, e1, e2, -⟩ := step_spec hi (.relStep t) trivial
    have e1' := e1
    simp only [step, hf, Option.map_eq_some_iff, Prod.mk.injEq] at e1
    obtain ⟨lt', -, hs', -⟩ := e1
    have hrel : s'.releasing = ⟨t, true, ps, b, v⟩ :: rs0 := by
      rw [← hs', hr]
      simp only [List.filter_cons, ne_eq, not_true_eq_false, decide_false, Bool.false_eq_true, if_false, List.cons.injEq, true_and]
      exact List.filter_eq_self.mpr fun r h => by simpa using hne r h
    obtain ⟨s2, rs, f1, f2, f3, f4, f5⟩ := ih e2 hrel hne
    refine ⟨s2, res :: rs, ?_, f2, f3, by rw [f4, ← hs'], by rw [f5, ← hs']⟩
    simp only [List.length_cons, List.replicate_succ, List.cons_append, run, e1', Option.bind_some, f1, Option.map_some]

theorem releaseAll_mem {t : Txn} {n : Nat} {e : Ev cfg} (he : e ∈ releaseAll t n) :
    e = .retire t ∨ e = .relStart t ∨ e = .relStep t ∨ e = .relEnd t := by
  simp only [releaseAll, List.mem_cons, List.mem_append, List.mem_replicate, List.not_mem_nil, or_false] at he
  rcases he with h | h | ⟨-, h⟩ | h
  · exact .inl h
  · exact .inr (.inl h)
  · exact .inr (.inr (.inl h))
  · exact .inr (.inr (.inr h))

theorem run_release {base : Nat} {t : Txn} {es : List (Ev cfg)} : ∀ {s s' : Sys cfg} {rs}, Reach base s →
    (∀ e ∈ es, e = .retire t ∨ e = .relStart t ∨ e = .relStep t ∨ e = .relEnd t) → run s es = some (s', rs) →
    ∀ u p, u ≠ t → (Locks s' u p ↔ Locks s u p) := by
  induction es with
  | nil => intro s s' rs _ _ hr; simp only [run, Option.some.injEq, Prod.mk.injEq] at hr; obtain ⟨rfl, -⟩ := hr; exact fun _ _ _ => .rfl
  | cons e es ih =>
    intro s s' rs h he hr u p hu
    simp only [run, Option.bind_eq_some_iff, Option.map_eq_some_iff] at hr
    obtain ⟨⟨s1, r⟩, h1, ⟨s2, rs2⟩, h2, h3⟩ := hr
    simp only [Prod.mk.injEq] at h3
    obtain ⟨rfl, rfl⟩ := h3
    have hok : EvOk e := by rcases he e (by simp) with rfl | rfl | rfl | rfl <;> trivial
    have hre : Reach base s1 := reach_run h (es := [e]) (rs := [r]) (by simpa using hok) (by simp [run, h1])
    rw [ih hre (fun x hx => he x (by simp [hx])) h2 u p hu]
    exact (C23_release_leaves_others_alone h (he e (by simp)) h1).1 u p hu

/-- C23.  When a transaction that has recorded its locks commits or aborts and runs its release, then afterwards it
holds nothing, everyone else's locks are what they were, and nothing of it is left in the system. -/
theorem C23_release_removes_exactly_own_locks {base : Nat} {s : Sys cfg} (h : Reach base s) {t : Txn}
    (hidle : idle s t = true) (hb : t ∈ s.bufs.map (·.1)) :
    ∃ n s' rs, run s (releaseAll t n) = some (s', rs) ∧ Reach base s' ∧
      (∀ p, ¬ Locks s' t p) ∧ (∀ u p, u ≠ t → (Locks s' u p ↔ Locks s u p)) ∧
      t ∉ s'.bufs.map (·.1) ∧ t ∉ s'.pending.map (·.1) ∧ t ∉ s'.releasing.map (·.txn) := by
  obtain ⟨q, hq, rfl⟩ := List.mem_map.mp hb
  obtain ⟨b, hlb⟩ : ∃ b, lookupBuf q.1 s.bufs = some b := by
    cases hl : lookupBuf q.1 s.bufs with
    | some b => exact ⟨b, rfl⟩
    | none => exact absurd hb (lookupBuf_none hl)
  obtain ⟨hi1, hi2⟩ := idle_iff.mp hidle
  -- leave the manager
  have e1 : step s (.retire q.1) = some ({ s with
        bufs := s.bufs.filter (fun x => decide (x.1 ≠ q.1)), releasing := ⟨q.1, false, [], b, false⟩ :: s.releasing }, .none) := by
    simp only [step, hidle, hlb]
  have i1 := retire_inv h.inv hidle hlb
  obtain ⟨s1, hs1⟩ : ∃ s1, s1 = ({ s with
        bufs := s.bufs.filter (fun x => decide (x.1 ≠ q.1)), releasing := ⟨q.1, false, [], b, false⟩ :: s.releasing } : Sys cfg) := ⟨_, rfl⟩
  rw [← hs1] at e1 i1
  have hr1 : s1.releasing = ⟨q.1, false, [], b, false⟩ :: s.releasing := by rw [hs1]
  -- start
  obtain ⟨s2, r2, e2, i2, -⟩ := step_spec i1 (.relStart q.1) trivial
  have e2' := e2
  have hf : findReleasing q.1 s1.releasing = some ⟨q.1, false, [], b, false⟩ := by rw [hr1]; simp [findReleasing]
  simp only [step, hf, Option.bind_eq_some_iff, Option.map_eq_some_iff, Prod.mk.injEq] at e2
  obtain ⟨⟨lt2, v⟩, -, rs, -, hs2, -⟩ := e2
  have hfil : s1.releasing.filter (fun x => decide (x.txn ≠ q.1)) = s.releasing := by
    rw [hr1, List.filter_cons]
    simp only [ne_eq, not_true_eq_false, decide_false, Bool.false_eq_true, if_false]
    exact List.filter_eq_self.mpr fun r h => by simpa using fun he => hi1 (List.mem_map.mpr ⟨r, h, he⟩)
  have hr2 : s2.releasing = ⟨q.1, true, if v then [] else rs, b, v⟩ :: s.releasing := by rw [← hs2, ← hfil]
  -- walk and finish
  obtain ⟨s3, rs3, e3, i3, f1, f2, f3⟩ := rel_steps (if v then [] else rs) i2 hr2
    (fun r h he => hi1 (List.mem_map.mpr ⟨r, h, he⟩))
  have hrun : run s (releaseAll q.1 (if v then [] else rs).length) = some (s3, .none :: r2 :: rs3) := by
    simp only [releaseAll, run, e1, e2', Option.bind_some, e3, Option.map_some]
  have hreach := reach_run h (releaseAll_ok q.1 _) hrun
  have hb3 : q.1 ∉ s3.bufs.map (·.1) := by
    rw [f2, ← hs2, hs1]
    intro hm
    obtain ⟨x, hx, hx1⟩ := List.mem_map.mp hm
    have := (List.mem_filter.mp hx).2
    simp [hx1] at this
  have hp3 : q.1 ∉ s3.pending.map (·.1) := by rw [f3, ← hs2, hs1]; exact hi2
  have hr3 : q.1 ∉ s3.releasing.map (·.txn) := by rw [f1]; exact hi1
  exact ⟨_, s3, _, hrun, hreach, C23_no_record_no_lock hreach hb3 hp3 hr3,
    run_release h (fun e he => releaseAll_mem he) hrun, hb3, hp3, hr3⟩

/-- In the sample run transaction 5 holds a lock, has a record and is idle; after its release only 7 holds one. -/
example : (run (Sys.init 1000 : Sys sampleCfg) sampleRun).map (fun q => (q.1.bufs.map (·.1), idle q.1 5)) =
    some ([5, 7], true) := by decide +kernel

/-! ### C24: the range tree -/

/-- Operations on the range tree, each under its own prepared key range. -/
inductive TreeOp (cfg : Cfg) where
  | insert (range : Rng cfg) (t : Txn)
  | remove (range : Rng cfg)
  | query (range : Rng cfg)

/-- Look up every stored range overlapping `range`: `concurrent_tree` as used by `iterate_and_get_overlapping_row_locks`,
locktree/locktree.cc:149-171. -/
def treeQuery (tree : LTree cfg) (range : Rng cfg) : Option (LTree cfg × List (Lock cfg)) :=
  (lkrAcquire tree range).bind fun q => lkrIterate q.1 q.2 range collect []

/-- Run one operation on the tree. -/
def treeStep (tree : LTree cfg) : TreeOp cfg → Option (LTree cfg)
  | .insert range t => (lkrAcquire tree range).bind fun q => lkrInsert q.1 q.2 range t
  | .remove range => (lkrAcquire tree range).bind fun q => lkrRemove q.1 q.2 range
  | .query range => (treeQuery tree range).map (·.1)

def treeRun (tree : LTree cfg) : List (TreeOp cfg) → Option (LTree cfg)
  | [] => some tree
  | op :: ops => (treeStep tree op).bind fun tree => treeRun tree ops

/-- The specification: a plain list of ranges. -/
def listStep (l : List (Lock cfg)) : TreeOp cfg → List (Lock cfg)
  | .insert range t => (range, t) :: l
  | .remove range => l.filter fun x => decide (x.1 ≠ range)
  | .query _ => l

/-- Two ranges share a point. -/
def Share (a b : Rng cfg) : Prop := ∃ p : Pt, Within cfg a.left p a.right ∧ Within cfg b.left p b.right

/-- What callers guarantee: ranges are not inverted, only ranges disjoint from the stored ones are inserted, and only
stored ranges are removed. -/
def LegalOps : List (Lock cfg) → List (TreeOp cfg) → Prop
  | _, [] => True
  | l, op :: ops =>
    (match op with
      | .insert range _ => (Pt.cmp cfg.cmp range.left range.right).isLE = true ∧ ∀ x ∈ l, ¬ Share range x.1
      | .remove range => ∃ t, (range, t) ∈ l
      | .query range => (Pt.cmp cfg.cmp range.left range.right).isLE = true) ∧
    LegalOps (listStep l op) ops

theorem share_iff {a b : Rng cfg} (ha : a.Valid) (hb : b.Valid) : Share a b ↔ a.Meets b := (meets_iff_has ha hb).symm

theorem treeQuery_spec (tree : LTree cfg) (range : Rng cfg) (hs : Sorted tree.toList) (hv : range.Valid) :
    ∃ tree', treeQuery tree range = some (tree', meeting tree.toList range) ∧ tree'.toList = tree.toList := by
  obtain ⟨t1, path, t2, sub, pre, post, h1, h2, h3, h4, -⟩ := search_spec tree range hs hv
  exact ⟨t2, by simp only [treeQuery, h1, Option.bind_some, h2], h4⟩

theorem treeInsert_spec (tree : LTree cfg) (range : Rng cfg) (t : Txn) (hs : Sorted tree.toList) (hv : range.Valid)
    (hd : ∀ x ∈ tree.toList, ¬ range.Meets x.1) :
    ∃ tree', treeStep tree (.insert range t) = some tree' ∧ Sorted tree'.toList ∧
      ∀ x, x ∈ tree'.toList ↔ x = (range, t) ∨ x ∈ tree.toList := by
  obtain ⟨t1, path, sub, pre, post, h1, h2, h3, h4, h5, h6, h7, h8⟩ := lkrAcquire_spec tree range hs hv
  rw [h4] at hs hd
  obtain ⟨sub', k1, a, b, k2, k3, k4, k5⟩ := Tree.insert_spec range t sub hv hs.left.right
    (fun x hx => hd x (by simp [hx]))
  refine ⟨t1.putAt path sub', ?_, ?_, ?_⟩
  · simp only [treeStep, h1, Option.bind_some, lkrInsert, h2, k1, Option.map_some]
  · rw [(h5 sub').2, k3]
    rw [k2] at hs
    have hs' : Sorted ((pre ++ a) ++ (b ++ post)) := by simpa using hs
    have : pre ++ (a ++ (range, t) :: b) ++ post = (pre ++ a) ++ (range, t) :: (b ++ post) := by simp
    rw [this]
    have hbp : ∀ y ∈ b ++ post, range.Before y.1 := by
      intro y hy
      rcases List.mem_append.mp hy with h | h
      · exact k5 y h
      · exact h7 y h
    have hpa : ∀ y ∈ pre ++ a, y.1.Before range := by
      intro y hy
      rcases List.mem_append.mp hy with h | h
      · exact h6 y h
      · exact k4 y h
    refine Sorted.append hs'.left (Sorted.cons hv hs'.right hbp) ?_
    intro x hx y hy
    rcases List.mem_cons.mp hy with rfl | hy
    · exact hpa x hx
    · exact hs'.cross x hx y hy
  · intro x
    rw [(h5 sub').2, h4, k3, k2]
    simp only [List.mem_append, List.mem_cons]
    constructor
    · rintro ((h | h | h | h) | h)
      · exact .inr (.inl (.inl h))
      · exact .inr (.inl (.inr (.inl h)))
      · exact .inl h
      · exact .inr (.inl (.inr (.inr h)))
      · exact .inr (.inr h)
    · rintro (h | (h | h | h) | h)
      · exact .inl (.inr (.inr (.inl h)))
      · exact .inl (.inl h)
      · exact .inl (.inr (.inl h))
      · exact .inl (.inr (.inr (.inr h)))
      · exact .inr h

theorem treeRemove_spec (tree : LTree cfg) (range : Rng cfg) (t : Txn) (hs : Sorted tree.toList)
    (hm : (range, t) ∈ tree.toList) :
    ∃ tree', treeStep tree (.remove range) = some tree' ∧ Sorted tree'.toList ∧
      ∀ x, x ∈ tree'.toList ↔ x ∈ tree.toList ∧ x.1 ≠ range := by
  have hv : range.Valid := hs.1 _ hm
  have hself : range.Meets range := ⟨hv, hv⟩
  obtain ⟨t1, path, sub, pre, post, h1, h2, h3, h4, h5, h6, h7, h8⟩ := lkrAcquire_spec tree range hs hv
  have hsub : (range, t) ∈ sub.toList := by
    rw [h4] at hm
    rcases List.mem_append.mp hm with h | h
    · rcases List.mem_append.mp h with h | h
      · exact absurd hself (h6 _ h).not_meets
      · exact h
    · exact absurd hself (h7 _ h).not_meets
  obtain ⟨t2, sub2, mem2, r1, r2, r3, r4, r5, -⟩ := removeMany_spec path [(range, t)] t1 sub (locksMem t1.toList) h2
    (by rw [h3]; exact hs) (by simpa using hsub) (by simp)
    (by
      rcases h8 with h | ⟨w, hw, hwm⟩
      · exact .inl h
      · refine .inr ⟨w, hw, ?_⟩
        simp only [List.mem_singleton]
        rintro rfl; exact hwm hself) (Nat.le_refl _)
  refine ⟨t2, ?_, ?_, ?_⟩
  · simp only [removeMany, Option.bind_eq_some_iff] at r1
    obtain ⟨a, ha, m, -, hab⟩ := r1
    simp only [Option.some.injEq, Prod.mk.injEq] at hab
    obtain ⟨rfl, -⟩ := hab
    simp only [treeStep, h1, Option.bind_some, ha]
  · rw [r4, h3]; exact hs.sublist List.filter_sublist
  · intro x
    rw [r4, h3, List.mem_filter]
    simp only [List.mem_singleton, decide_eq_true_eq, and_congr_right_iff]
    intro hx
    constructor
    · intro hne he
      apply hne
      rcases Classical.em (x = (range, t)) with h | h
      · exact h
      · rcases hs.before_or hx hm h with h' | h'
        · exact absurd (he ▸ hself : x.1.Meets range) h'.not_meets
        · exact absurd (he ▸ hself : x.1.Meets range) h'.not_meets'
    · rintro hne rfl; exact hne rfl

/-- C24.  After any legal sequence of insertions, removals and queries on an empty tree, however the tree has been
rotated by them: no operation fails, and a query for any range finds exactly the stored ranges that share a point with
it, each once, in key order, with their owners. -/
theorem C24_queries_are_exact {ops : List (TreeOp cfg)} (h : LegalOps [] ops) :
    ∃ tree, treeRun (.nil : LTree cfg) ops = some tree ∧
      ∀ range : Rng cfg, (Pt.cmp cfg.cmp range.left range.right).isLE = true →
        ∃ tree' found, treeQuery tree range = some (tree', found) ∧
          (∀ x, x ∈ found ↔ x ∈ ops.foldl listStep [] ∧ Share range x.1) ∧
          found.Pairwise fun a b => Pt.cmp cfg.cmp a.1.right b.1.left = .lt := by
  have key : ∀ (ops : List (TreeOp cfg)) (l : List (Lock cfg)) (tree : LTree cfg), LegalOps l ops → Sorted tree.toList →
      (∀ x, x ∈ tree.toList ↔ x ∈ l) → ∃ tree', treeRun tree ops = some tree' ∧ Sorted tree'.toList ∧
        ∀ x, x ∈ tree'.toList ↔ x ∈ ops.foldl listStep l := by
    intro ops
    induction ops with
    | nil => intro l tree _ hs hm; exact ⟨tree, rfl, hs, hm⟩
    | cons op ops ih =>
      intro l tree ⟨hl, hl'⟩ hs hm
      have : ∃ t', treeStep tree op = some t' ∧ Sorted t'.toList ∧ ∀ x, x ∈ t'.toList ↔ x ∈ listStep l op := by
        cases op with
        | insert range t =>
          obtain ⟨t', e1, e2, e3⟩ := treeInsert_spec tree range t hs hl.1
            (fun x hx hx' => hl.2 x ((hm x).mp hx) ((share_iff hl.1 (hs.1 x hx)).mpr hx'))
          exact ⟨t', e1, e2, fun x => by rw [e3, hm]; simp [listStep]⟩
        | remove range =>
          obtain ⟨t, ht⟩ := hl
          obtain ⟨t', e1, e2, e3⟩ := treeRemove_spec tree range t hs ((hm _).mpr ht)
          exact ⟨t', e1, e2, fun x => by rw [e3, hm]; simp [listStep]⟩
        | query range =>
          obtain ⟨t', e1, e2⟩ := treeQuery_spec tree range hs hl
          exact ⟨t', by simp [treeStep, e1], by rw [e2]; exact hs, fun x => by rw [e2]; exact hm x⟩
      obtain ⟨t', e1, e2, e3⟩ := this
      obtain ⟨t2, f1, f2, f3⟩ := ih _ t' hl' e2 e3
      exact ⟨t2, by simp only [treeRun, e1, Option.bind_some, f1], f2, f3⟩
  obtain ⟨tree, e1, e2, e3⟩ := key ops [] .nil h ⟨by simp [Tree.toList], by simp [Tree.toList]⟩ (by simp [Tree.toList])
  refine ⟨tree, e1, ?_⟩
  intro range hv
  obtain ⟨tree', q1, -⟩ := treeQuery_spec tree range e2 hv
  refine ⟨tree', _, q1, ?_, ?_⟩
  · intro x
    rw [mem_meeting, e3]
    constructor
    · rintro ⟨h1, h2⟩
      exact ⟨h1, (share_iff hv (e2.1 x ((e3 x).mpr h1))).mpr h2⟩
    · rintro ⟨h1, h2⟩
      exact ⟨h1, (share_iff hv (e2.1 x ((e3 x).mpr h1))).mp h2⟩
  · exact (e2.sublist List.filter_sublist).2

/-- A sample that rotates: nine ascending inserts, a removal, and a query across the middle. -/
example : ((treeRun (.nil : LTree sampleCfg)
      ([1, 2, 3, 4, 5, 6, 7, 8, 9].map (fun k => TreeOp.insert (mkRange (.key [k, 0]) (.key [k, 9])) k.toNat) ++
        [.remove (mkRange (.key [5, 0]) (.key [5, 9]))])).bind
      fun t => treeQuery t (mkRange (.key [3, 4]) (.key [6]))).map (fun q => q.2.map (·.2)) = some [3, 4] := by
  decide +kernel

/-! ### C27: range buffers -/

theorem appendAll_fits (es : List Entry) : ∀ {b b' : RangeBuffer}, (∀ c, b.arena.cur = some c → c.data.length ≤ c.size) →
    appendAll b es = some b' → ∀ c, b'.arena.cur = some c → c.data.length ≤ c.size := by
  induction es with
  | nil => intro b b' h hb; simp only [appendAll, Option.some.injEq] at hb; subst hb; exact h
  | cons e es ih =>
    intro b b' h hb
    simp only [appendAll, Option.bind_eq_some_iff] at hb
    obtain ⟨b1, h1, h2⟩ := hb
    exact ih (memory_append h h1).2 h2

/-- C27, part.  A range buffer to which any ranges were appended reads back as exactly these ranges, each as often as
it was appended, provided each key is shorter than 65536 bytes and an empty right key comes only with an empty left
key.  Missing: the order of appending is not kept (see `C27_order_is_not_kept`), and ranges outside the proviso read
back wrongly (see the witnesses below). -/
theorem C27_buffer_returns_what_was_appended_partial (es : List Entry)
    (h : ∀ e ∈ es, e.left.size < 65536 ∧ e.right.size < 65536 ∧ (e.right = .key [] → e.left = .key [])) :
    ∃ b rs, appendAll .create es = some b ∧ b.ranges = some rs ∧ rs.Perm (es.map fun e => (e.left, e.right)) ∧
      b.numRanges = es.length ∧ (b.isEmpty = true ↔ es = []) := by
  obtain ⟨b, cur, others, e1, e2, e3⟩ := holds_appendAll holds_create es h
  simp only [List.flatten_nil, List.nil_append] at e3
  refine ⟨b, _, e1, ranges_holds e2 (by rw [e3]; exact h), ?_, by rw [e2.count, e3], ?_⟩
  · rw [← e3]
    exact List.perm_append_comm.map _
  · have hbo : BOk b ((cur ++ others.flatten).map Entry.pair) :=
      ⟨cur, others, e2, by rw [e3]; exact h, appendAll_fits es (by simp [RangeBuffer.create]) e1, rfl⟩
    rw [hbo.isEmpty, ← e3]
    simp only [List.map_eq_nil_iff, List.append_eq_nil_iff]
    exact And.comm

/-- The proviso is met by point locks, ranges, and both infinities. -/
example : ∀ e ∈ [Entry.mk (.key [1]) (.key [1]) true, ⟨.key [1], .key [2, 3], false⟩, ⟨.negInf, .posInf, false⟩, ⟨.key [], .key [], true⟩],
    e.left.size < 65536 ∧ e.right.size < 65536 ∧ (e.right = .key [] → e.left = .key []) := by decide

/-- The full property fails: the range from minus infinity to the empty key, appended after another range, reads back
with the other range's left key as its right end. -/
theorem C27_range_ending_at_empty_key_reads_back_wrong :
    (appendAll .create [⟨.key [7], .key [8], false⟩, ⟨.negInf, .key [], false⟩]).bind (·.ranges) =
      some [(.key [7], .key [8]), (.negInf, .key [7])] := by decide +kernel

/-- As the first range of a buffer it reads a key that was never filled in. -/
theorem C27_range_ending_at_empty_key_reads_garbage :
    (appendAll .create [⟨.negInf, .key [], false⟩]).bind (·.ranges) = none := by decide +kernel

/-- A range whose right end is the empty key reads back as the point lock on its left end (possible with a comparator that
does not order the empty key first). -/
theorem C27_empty_right_key_is_lost :
    (appendAll .create [⟨.key [7], .key [], false⟩]).bind (·.ranges) = some [(.key [7], .key [7])] := by decide +kernel

/-- Every key of exactly 65536 bytes passes the size check and reads back as the empty key. -/
theorem C27_longest_key_reads_back_empty (k : Bytes) (h : k.length = 65536) :
    (∃ b, RangeBuffer.create.append (.key k) .posInf false = some b) ∧
      ∃ prev n, deserialize ⟨none, none⟩ (record (.key k) .posInf false) = some ((.key [], .posInf), prev, n) := by
  refine ⟨⟨_, by simp [RangeBuffer.append, Pt.size, h]; rfl⟩, ?_⟩
  simp only [record, dbtEquals, rangeHeader, Pt.size, h, le2, Pt.bytes]
  simp [deserialize, flag, endpoint, ofLe]

/-- The order of appending is not kept: with two records of 3008 bytes the second one is read first. -/
theorem C27_order_is_not_kept :
    ((appendAll .create [⟨.key (List.replicate 3000 1), .posInf, false⟩, ⟨.key (List.replicate 3000 2), .posInf, false⟩]).bind
      (·.ranges)).map (fun rs => rs.map (fun r => r.1.bytes.take 1)) = some [[2], [1]] := by decide +kernel

/-! ### C45: lock memory -/

/-- C45.  In every reachable state the charge is exactly: the initial charge, the keys and overhead of the locks in the
tree, the buffer of the single-transaction optimisation, and the range buffers of live and of releasing transactions. -/
theorem C45_lock_memory_is_exact {base : Nat} {s : Sys cfg} (h : Reach base s) :
    s.lt.mem = base + (s.lt.tree.toList.map fun x => Pt.size x.1.left + Pt.size x.1.right + cfg.overhead).sum +
      s.lt.stoBuf.memory + (s.bufs.map fun q => q.2.memory).sum + (s.releasing.map fun r => r.buffer.memory).sum := by
  have := h.inv.mem
  unfold tableMem locksMem lockSize memOf relMem at this
  rw [this]
  simp only [Nat.add_assoc]

/-- C45.  When no transaction has a record, a grant to note or a release under way, the table is empty and the charge is
back at its initial value. -/
theorem C45_charge_returns_to_base {base : Nat} {s : Sys cfg} (h : Reach base s) (h1 : s.bufs = []) (h2 : s.pending = [])
    (h3 : s.releasing = []) : tableLocks s.lt = [] ∧ s.lt.mem = base := by
  have he : tableLocks s.lt = [] := by
    rw [List.eq_nil_iff_forall_not_mem]
    intro x hx
    obtain ⟨y, hy, -, -⟩ := h.inv.backed x hx
    rcases claimed_key hy with h' | h' | h'
    · simp [h1] at h'
    · simp [h2] at h'
    · simp [h3] at h'
  refine ⟨he, ?_⟩
  have hm := C45_lock_memory_is_exact h
  have hon : s.lt.stoTxn = 0 := by
    refine Classical.byContradiction fun hon => ?_
    obtain ⟨-, ps, hb, hne⟩ := h.inv.table.on hon
    simp [tableLocks, hon, hb.ranges, asLocks, hne] at he
  have ht : s.lt.tree.toList = [] := by simpa [tableLocks, hon] using he
  rw [ht, h.inv.table.off hon, h1, h3] at hm
  simpa [create_memory] using hm

/-- In the sample, locks and buffers are charged, and after both transactions have released the charge is back. -/
example : (run (Sys.init 1000 : Sys sampleCfg)
    (sampleRelease ++ [.retire 7, .relStart 7, .relStep 7, .relEnd 7])).map
      (fun q => (q.1.bufs.length, q.1.pending.length, q.1.releasing.length, q.1.lt.mem)) = some (0, 0, 0, 1000) := by
  decide +kernel

end Verif.Lt
