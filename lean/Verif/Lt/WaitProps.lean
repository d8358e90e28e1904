import Verif.Lt.WaitLemmas
import Verif.Lt.LockProps

/-!
C25: deadlock detection.

`WaitsFor s reqs a b` is the specification: `a` has a pending request some point of whose range `b` holds locked, and
`b` is itself waiting.  A deadlock is a cycle of it.  `WReach base s` ranges over all finite interleavings of lock
attempts, enqueueings, retries, time-outs, escalations and releases by any transactions.
-/
namespace Verif.Lt
open Std Relation

variable {cfg : Cfg} [TransCmp cfg.cmp]

/-- `a` waits for `b`, which waits itself. -/
def WaitsFor (s : Sys cfg) (reqs : List Req) (a b : Txn) : Prop :=
  ∃ l r, (a, (l, r)) ∈ reqs ∧ b ∈ reqs.map (·.1) ∧ Conflicts s a b l r

/-- Requests are for real transactions and ranges that can be locked. -/
def WEvOk : WEv cfg → Prop
  | .attempt t l r _ => t ≠ 0 ∧ Lockable (mkRange (cfg := cfg) l r)
  | _ => True

/-- States reached from an empty table. -/
def WReach (base : Nat) (s : WSys cfg) : Prop :=
  ∃ es as, (∀ e ∈ es, WEvOk e) ∧ wrun (WSys.init base) es = some (s, as)

/-! ### What always holds -/

structure WInv (base : Nat) (s : WSys cfg) : Prop where
  inv : Inv base s.sys
  sorted : (s.reqs.map (·.1)).Pairwise (· < ·)
  ok : ∀ q ∈ s.reqs, q.1 ≠ 0 ∧ Lockable (mkRange (cfg := cfg) q.2.1 q.2.2)
  keys : (s.refused.map (·.1.1)).Nodup
  fresh : ∀ q ∈ s.refused, q.1.1 ∉ s.reqs.map (·.1) ∧ q.1.1 ∉ q.2
  rok : ∀ q ∈ s.refused, q.1.1 ≠ 0 ∧ Lockable (mkRange (cfg := cfg) q.1.2.1 q.1.2.2)

theorem winv_init (base : Nat) : WInv base (WSys.init base : WSys cfg) :=
  ⟨inv_init base, .nil, by simp [WSys.init], .nil, by simp [WSys.init], by simp [WSys.init]⟩

omit [TransCmp cfg.cmp] in
theorem findRefused_mem {t : Txn} {l : List (Req × List Txn)} {q} (h : findRefused t l = some q) : q ∈ l ∧ q.1.1 = t := by
  induction l with
  | nil => cases h
  | cons a l ih =>
    simp only [findRefused] at h
    split at h
    · cases h; exact ⟨by simp, by assumption⟩
    · exact ⟨List.mem_cons_of_mem _ (ih h).1, (ih h).2⟩

theorem insertReq_spec {q : Req} {rs : List Req} (hs : (rs.map (·.1)).Pairwise (· < ·)) (hq : q.1 ∉ rs.map (·.1)) :
    ∃ rs', insertReq q rs = some rs' ∧ (rs'.map (·.1)).Pairwise (· < ·) ∧ ∀ x, x ∈ rs' ↔ x = q ∨ x ∈ rs := by
  induction rs with
  | nil => exact ⟨[q], rfl, by simp, by simp⟩
  | cons a rs ih =>
    obtain ⟨u, p⟩ := a
    simp only [List.map_cons, List.pairwise_cons] at hs
    simp only [List.map_cons, List.mem_cons, not_or] at hq
    simp only [insertReq]
    split
    · rename_i hlt
      obtain ⟨rs', e1, e2, e3⟩ := ih hs.2 hq.2
      refine ⟨(u, p) :: rs', by rw [e1]; rfl, ?_, ?_⟩
      · simp only [List.map_cons, List.pairwise_cons]
        refine ⟨?_, e2⟩
        intro x hx
        obtain ⟨y, hy, rfl⟩ := List.mem_map.mp hx
        rcases (e3 y).mp hy with rfl | hy
        · exact hlt
        · exact hs.1 _ (List.mem_map_of_mem hy)
      · intro x; simp only [List.mem_cons, e3]; grind
    · split
      · rename_i h; exact absurd h.symm hq.1
      · rename_i h1 h2
        have hlt : q.1 < u := Nat.lt_of_le_of_ne (Nat.le_of_not_lt h1) hq.1
        refine ⟨_, rfl, ?_, by simp⟩
        simp only [List.map_cons, List.pairwise_cons, List.mem_cons]
        refine ⟨?_, hs⟩
        rintro x (rfl | hx)
        · exact hlt
        · exact Nat.lt_trans hlt (hs.1 x hx)

theorem removeReq_spec {t : Txn} {rs : List Req} (h : t ∈ rs.map (·.1)) :
    removeReq t rs = some (rs.filter (·.1 ≠ t)) := by
  unfold removeReq
  rw [if_pos]
  obtain ⟨x, hx, hxt⟩ := List.mem_map.mp h
  exact List.any_eq_true.mpr ⟨x, hx, by simpa using hxt⟩

theorem mem_filterReq {t : Txn} {rs : List Req} {x : Req} : x ∈ rs.filter (·.1 ≠ t) ↔ x ∈ rs ∧ x.1 ≠ t := by
  simp [List.mem_filter]

theorem sorted_filterReq {t : Txn} {rs : List Req} (h : (rs.map (·.1)).Pairwise (· < ·)) :
    ((rs.filter (·.1 ≠ t)).map (·.1)).Pairwise (· < ·) := h.sublist (List.filter_sublist.map _)

theorem findReq_of_mem {rs : List Req} (h : (rs.map (·.1)).Pairwise (· < ·)) {t : Txn} {p} (hm : (t, p) ∈ rs) :
    findReq t rs = some p := by
  induction rs with
  | nil => cases hm
  | cons a rs ih =>
    simp only [List.map_cons, List.pairwise_cons] at h
    simp only [findReq]
    rcases List.mem_cons.mp hm with rfl | hm
    · simp
    · have := h.1 t (List.mem_map_of_mem (f := (·.1)) hm)
      rw [if_neg (Nat.ne_of_lt this)]
      exact ih h.2 hm

/-- `get_conflicts` on the tree: exactly the others with a lock meeting the range, while the optimisation is off;
nobody while it is on. -/
theorem getConflicts_spec {base : Nat} {s : Sys cfg} (h : Inv base s) {t : Txn} {l r : Pt}
    (hr : Lockable (mkRange (cfg := cfg) l r)) :
    ∃ cs, getConflicts s.lt t l r = some cs ∧ t ∉ cs ∧
      (s.lt.stoTxn = 0 → ∀ u, u ∈ cs ↔ Conflicts s t u l r) ∧ (s.lt.stoTxn ≠ 0 → cs = []) := by
  obtain ⟨t1, path, t2, sub, pre, post, e1, e2, -⟩ := search_spec s.lt.tree (mkRange (cfg := cfg) l r) h.table.sorted hr.valid
  refine ⟨conflicting (meeting s.lt.tree.toList (mkRange l r)) t, ?_, ?_, ?_, ?_⟩
  · unfold getConflicts; rw [e1]; simp only [Option.bind_some, e2, Option.map_some]
  · rw [mem_conflicting]; exact fun h => h.1 rfl
  · intro h0 u
    have hl : tableLocks s.lt = s.lt.tree.toList := by unfold tableLocks; rw [if_neg (by simpa using h0)]
    rw [blocked_iff (fun x hx => (h.table.lockable x (by rw [hl]; exact hx)).valid) hr.valid]
    unfold Blocked Conflicts Locks
    rw [hl]; exact Iff.rfl
  · intro h0
    rw [(h.table.on h0).1]; rfl

theorem conflicts_owner {base : Nat} {s : Sys cfg} (h : Inv base s) (h0 : s.lt.stoTxn ≠ 0) {a b : Txn} {l r : Pt}
    (hc : Conflicts s a b l r) : b = s.lt.stoTxn := by
  obtain ⟨-, p, -, x, hx, rfl, -⟩ := hc
  unfold tableLocks at hx
  rw [if_pos h0] at hx
  simp only [asLocks, List.mem_map] at hx
  obtain ⟨y, -, rfl⟩ := hx
  rfl

theorem transGen_mono {R S : Txn → Txn → Prop} (h : ∀ a b, R a b → S a b) {a b} (ht : TransGen R a b) : TransGen S a b := by
  induction ht with
  | single h' => exact .single (h _ _ h')
  | tail _ h' ih => exact .tail ih (h _ _ h')

theorem transGen_last {R : Txn → Txn → Prop} {a b} (ht : TransGen R a b) : ∃ c, R c b := by
  cases ht with
  | single h => exact ⟨_, h⟩
  | tail _ h => exact ⟨_, h⟩

/-- The detector, given the conflicts `cs` that the requester was told: it answers, and finds a cycle exactly if
there is one in the graph whose edges from the requester go to the members of `cs`. -/
theorem detector_spec {base : Nat} {s : Sys cfg} (h : Inv base s) {reqs : List Req}
    (hs : (reqs.map (·.1)).Pairwise (· < ·)) (hok : ∀ q ∈ reqs, q.1 ≠ 0 ∧ Lockable (mkRange (cfg := cfg) q.2.1 q.2.2))
    {t : Txn} {l r : Pt} (hm : (t, (l, r)) ∈ reqs) {cs : List Txn} (ht : t ∉ cs) :
    ∃ d, deadlockExists s.lt reqs t cs = some d ∧
      ((∀ b ∈ cs, b ∈ reqs.map (·.1) → Conflicts s t b l r) → d = true → TransGen (WaitsFor s reqs) t t) ∧
      ((∀ b, Conflicts s t b l r → b ∈ cs) → TransGen (WaitsFor s reqs) t t → d = true) := by
  have hg : ∀ b, ∃ cs, ∀ p, findReq b reqs = some p → getConflicts s.lt b p.1 p.2 = some cs ∧ b ∉ cs ∧
      (s.lt.stoTxn = 0 → ∀ u, u ∈ cs ↔ Conflicts s b u p.1 p.2) ∧ (s.lt.stoTxn ≠ 0 → cs = []) := by
    intro b
    cases hb : findReq b reqs with
    | none => exact ⟨[], fun p hp => by cases hp⟩
    | some p =>
      obtain ⟨cs, h1⟩ := getConflicts_spec h (t := b) (hok _ (findReq_mem hb)).2
      exact ⟨cs, fun p' hp => by cases hp; exact h1⟩
  let K : Txn → List Txn := fun b => Classical.choose (hg b)
  have hK : ∀ b p, findReq b reqs = some p → getConflicts s.lt b p.1 p.2 = some (K b) ∧ b ∉ K b ∧
      (s.lt.stoTxn = 0 → ∀ u, u ∈ K b ↔ Conflicts s b u p.1 p.2) ∧ (s.lt.stoTxn ≠ 0 → K b = []) :=
    fun b => Classical.choose_spec (hg b)
  obtain ⟨d, e1, e2⟩ := deadlockExists_spec s.lt reqs t cs K (fun b p hp => ⟨(hK b p hp).1, (hK b p hp).2.1⟩) ht
  refine ⟨d, e1, ?_, ?_⟩
  · intro hcs hd
    refine transGen_mono ?_ (e2.mp hd)
    rintro a b ⟨hb, ⟨rfl, h'⟩ | ⟨-, ha, h'⟩⟩
    · exact ⟨l, r, hm, hb, hcs b h' hb⟩
    · obtain ⟨p, hp⟩ := findReq_isSome.mpr ha
      obtain ⟨-, -, k3, k4⟩ := hK a p hp
      by_cases h0 : s.lt.stoTxn = 0
      · exact ⟨p.1, p.2, findReq_mem hp, hb, (k3 h0 b).mp h'⟩
      · rw [k4 h0] at h'; cases h'
  · intro hcs hcyc
    refine e2.mpr ?_
    by_cases h0 : s.lt.stoTxn = 0
    · refine transGen_mono ?_ hcyc
      rintro a b ⟨l', r', ha, hb, hc⟩
      refine ⟨hb, ?_⟩
      by_cases hat : a = t
      · subst hat
        have := (findReq_of_mem hs ha).symm.trans (findReq_of_mem hs hm)
        simp only [Option.some.injEq, Prod.mk.injEq] at this
        obtain ⟨rfl, rfl⟩ := this
        exact .inl ⟨rfl, hcs b hc⟩
      · exact .inr ⟨hat, List.mem_map_of_mem (f := (·.1)) ha, ((hK a _ (findReq_of_mem hs ha)).2.2.1 h0 b).mpr hc⟩
    · -- with the optimisation on only one transaction holds locks, so nothing waits for its waiter
      exfalso
      obtain ⟨c, l1, r1, -, -, hc⟩ := transGen_last hcyc
      have ht0 := conflicts_owner h h0 hc
      have : ∀ x, TransGen (WaitsFor s reqs) t x → x = t → False := by
        intro x hx
        induction hx with
        | single h' =>
          rintro rfl
          obtain ⟨_, _, _, _, hh⟩ := h'
          exact hh.1 rfl
        | tail hx h' ih =>
          rintro rfl
          obtain ⟨_, _, _, _, hh⟩ := h'
          obtain ⟨w, _, _, _, _, hw⟩ := transGen_last hx
          exact ih ((conflicts_owner h h0 hw).trans ht0.symm)
      exact this t hcyc rfl

/-- Every step has an outcome and keeps the invariant. -/
theorem wstep_spec {base : Nat} {s : WSys cfg} (h : WInv base s) (e : WEv cfg) (he : WEvOk e) :
    ∃ s' a, wstep s e = some (s', a) ∧ WInv base s' := by
  cases e with
  | attempt t l r sp =>
    simp only [wstep]
    split
    · rename_i hq
      simp only [Bool.and_eq_true, quiet, Option.isNone_iff_eq_none, Bool.not_eq_true', List.any_eq_false] at hq
      obtain ⟨⟨hq1, hq2⟩, hq3⟩ := hq
      obtain ⟨s', res, e1, e2, e3⟩ := step_spec h.inv (.acquire t l r sp) he
      rw [e1]
      simp only [Option.map_some]
      cases res with
      | notGranted cs =>
        refine ⟨_, _, rfl, ⟨e2, h.sorted, h.ok, ?_, ?_, ?_⟩⟩
        · simp only [List.map_cons, List.nodup_cons]
          refine ⟨fun hm => ?_, h.keys⟩
          obtain ⟨x, hx, hxt⟩ := List.mem_map.mp hm
          exact hq2 x hx (by simpa using hxt)
        · intro q hq
          rcases List.mem_cons.mp hq with rfl | hq
          · refine ⟨findReq_none.mp hq1, ?_⟩
            rcases e3 with ⟨h', -⟩ | ⟨-, h', -⟩ | ⟨-, -, cs', h', -, hcs⟩
            · cases h'
            · cases h'
            · cases h'; exact fun hm => ((hcs t).mp hm).1 rfl
          · exact h.fresh q hq
        · intro q hq
          rcases List.mem_cons.mp hq with rfl | hq
          · exact he
          · exact h.rok q hq
      | granted => exact ⟨_, _, rfl, ⟨e2, h.sorted, h.ok, h.keys, h.fresh, h.rok⟩⟩
      | outOfLocks => exact ⟨_, _, rfl, ⟨e2, h.sorted, h.ok, h.keys, h.fresh, h.rok⟩⟩
      | none => exact ⟨_, _, rfl, ⟨e2, h.sorted, h.ok, h.keys, h.fresh, h.rok⟩⟩
    · exact ⟨_, _, rfl, h⟩
  | enqueue t =>
    simp only [wstep]
    split
    · rename_i q cs hf
      obtain ⟨hm, hqt⟩ := findRefused_mem hf
      simp only at hqt
      obtain ⟨f1, f2⟩ := h.fresh _ hm
      obtain ⟨rs, e1, e2, e3⟩ := insertReq_spec h.sorted f1
      have hok : ∀ x ∈ rs, x.1 ≠ 0 ∧ Lockable (mkRange (cfg := cfg) x.2.1 x.2.2) := by
        intro x hx
        rcases (e3 x).mp hx with rfl | hx
        · exact h.rok _ hm
        · exact h.ok x hx
      subst hqt
      obtain ⟨d, g1, -⟩ := detector_spec h.inv e2 hok (t := q.1) (l := q.2.1) (r := q.2.2) ((e3 _).mpr (.inl rfl)) f2
      rw [e1]; simp only [Option.bind_some, g1]
      have hkeys : ((s.refused.filter (·.1.1 ≠ q.1)).map (·.1.1)).Nodup := h.keys.sublist (List.filter_sublist.map _)
      cases d with
      | true =>
        simp only [if_true]
        rw [removeReq_spec (List.mem_map.mpr ⟨q, (e3 q).mpr (.inl rfl), rfl⟩)]
        refine ⟨_, _, rfl, ⟨h.inv, sorted_filterReq e2, fun x hx => hok x (mem_filterReq.mp hx).1, hkeys, ?_, ?_⟩⟩
        · intro x hx
          have hx' := (List.mem_filter.mp hx).1
          refine ⟨fun hmem => (h.fresh x hx').1 ?_, (h.fresh x hx').2⟩
          obtain ⟨y, hy, hyx⟩ := List.mem_map.mp hmem
          obtain ⟨hy1, hy2⟩ := mem_filterReq.mp hy
          rcases (e3 y).mp hy1 with rfl | hy1
          · exact absurd rfl hy2
          · exact List.mem_map.mpr ⟨y, hy1, hyx⟩
        · intro x hx; exact h.rok x (List.mem_filter.mp hx).1
      | false =>
        simp only [Bool.false_eq_true, if_false]
        refine ⟨_, _, rfl, ⟨h.inv, e2, hok, hkeys, ?_, ?_⟩⟩
        · intro x hx
          obtain ⟨hx', hx2⟩ := List.mem_filter.mp hx
          refine ⟨fun hmem => ?_, (h.fresh x hx').2⟩
          obtain ⟨y, hy, hyx⟩ := List.mem_map.mp hmem
          rcases (e3 y).mp hy with rfl | hy1
          · simp only [ne_eq, decide_not, Bool.not_eq_true', decide_eq_false_iff_not] at hx2
            exact hx2 hyx.symm
          · exact (h.fresh x hx').1 (List.mem_map.mpr ⟨y, hy1, hyx⟩)
        · intro x hx; exact h.rok x (List.mem_filter.mp hx).1
    · exact ⟨_, _, rfl, h⟩
  | retry t sp =>
    simp only [wstep]
    split
    · rename_i p hf
      have hm := findReq_mem hf
      obtain ⟨s', res, e1, e2, -⟩ := step_spec h.inv (.acquire t p.1 p.2 sp) (h.ok _ hm)
      rw [e1]; simp only [Option.bind_some]
      cases res with
      | granted =>
        rw [removeReq_spec (List.mem_map_of_mem (f := (·.1)) hm)]
        refine ⟨_, _, rfl, ⟨e2, sorted_filterReq h.sorted, fun x hx => h.ok x (mem_filterReq.mp hx).1, h.keys, ?_, h.rok⟩⟩
        intro x hx
        refine ⟨fun hmem => (h.fresh x hx).1 ?_, (h.fresh x hx).2⟩
        obtain ⟨y, hy, hyx⟩ := List.mem_map.mp hmem
        exact List.mem_map.mpr ⟨y, (mem_filterReq.mp hy).1, hyx⟩
      | notGranted cs => exact ⟨_, _, rfl, ⟨e2, h.sorted, h.ok, h.keys, h.fresh, h.rok⟩⟩
      | outOfLocks => exact ⟨_, _, rfl, ⟨e2, h.sorted, h.ok, h.keys, h.fresh, h.rok⟩⟩
      | none => exact ⟨_, _, rfl, ⟨e2, h.sorted, h.ok, h.keys, h.fresh, h.rok⟩⟩
    · exact ⟨_, _, rfl, h⟩
  | giveUp t =>
    simp only [wstep]
    split
    · rename_i p hf
      rw [removeReq_spec (List.mem_map_of_mem (f := (·.1)) (findReq_mem hf))]
      refine ⟨_, _, rfl, ⟨h.inv, sorted_filterReq h.sorted, fun x hx => h.ok x (mem_filterReq.mp hx).1, h.keys, ?_, h.rok⟩⟩
      intro x hx
      refine ⟨fun hmem => (h.fresh x hx).1 ?_, (h.fresh x hx).2⟩
      obtain ⟨y, hy, hyx⟩ := List.mem_map.mp hmem
      exact List.mem_map.mpr ⟨y, (mem_filterReq.mp hy).1, hyx⟩
    · exact ⟨_, _, rfl, h⟩
  | other e =>
    have key : EvOk e → ∃ s' a, (if e.actor.all (quiet s) then (step s.sys e).map fun q => (({ s with sys := q.1 } : WSys cfg), Answer.none)
        else some (s, .none)) = some (s', a) ∧ WInv base s' := by
      intro hok
      split
      · obtain ⟨s', res, e1, e2, -⟩ := step_spec h.inv e hok
        rw [e1]
        exact ⟨_, _, rfl, ⟨e2, h.sorted, h.ok, h.keys, h.fresh, h.rok⟩⟩
      · exact ⟨_, _, rfl, h⟩
    cases e with
    | acquire => exact ⟨_, _, rfl, h⟩
    | tryAcquire => exact ⟨_, _, rfl, h⟩
    | _ => exact key trivial

theorem wrun_spec {base : Nat} (es : List (WEv cfg)) {s : WSys cfg} (h : WInv base s) (he : ∀ e ∈ es, WEvOk e) :
    ∃ s' as, wrun s es = some (s', as) ∧ WInv base s' := by
  induction es generalizing s with
  | nil => exact ⟨s, [], rfl, h⟩
  | cons e es ih =>
    obtain ⟨s1, a, e1, e2⟩ := wstep_spec h e (he e (by simp))
    obtain ⟨s2, as, e3, e4⟩ := ih e2 (fun x hx => he x (by simp [hx]))
    exact ⟨s2, a :: as, by simp only [wrun, e1, Option.bind_some, e3, Option.map_some], e4⟩

theorem WReach.winv {base : Nat} {s : WSys cfg} (h : WReach base s) : WInv base s := by
  obtain ⟨es, as, he, hr⟩ := h
  obtain ⟨s', as', e1, e2⟩ := wrun_spec es (winv_init base) he
  rw [hr] at e1; cases e1; exact e2

/-! ### C25: the check made when a request starts to wait -/

/-- No interleaving of requests, retries, time-outs, escalations and releases trips an assertion of the waiting
machinery: every event has an outcome in every reachable state. -/
theorem C25_no_event_fails {base : Nat} {s : WSys cfg} (h : WReach base s) {e : WEv cfg} (he : WEvOk e) :
    ∃ s' a, wstep s e = some (s', a) := by
  obtain ⟨s', a, e1, -⟩ := wstep_spec h.winv e he
  exact ⟨s', a, e1⟩

/-- What enqueueing a refused request does. -/
theorem enqueue_spec {base : Nat} {s : WSys cfg} (h : WInv base s) {t : Txn} {l r : Pt} {cs : List Txn}
    (hf : findRefused t s.refused = some ((t, (l, r)), cs)) :
    ∃ s' a, wstep s (.enqueue t) = some (s', a) ∧ s'.sys = s.sys ∧ (a = .deadlock ∨ a = .waiting) ∧
      (a = .deadlock → ∀ x, x ∈ s'.reqs ↔ x ∈ s.reqs) ∧
      (a = .waiting → ∀ x, x ∈ s'.reqs ↔ x = (t, (l, r)) ∨ x ∈ s.reqs) ∧
      (s'.refused = s.refused.filter (·.1.1 ≠ t)) ∧
      ((∀ b ∈ cs, b ∈ s.reqs.map (·.1) → Conflicts s.sys t b l r) → a = .deadlock →
        TransGen (WaitsFor s.sys ((t, (l, r)) :: s.reqs)) t t) ∧
      ((∀ b, Conflicts s.sys t b l r → b ∈ cs) → TransGen (WaitsFor s.sys ((t, (l, r)) :: s.reqs)) t t → a = .deadlock) := by
  obtain ⟨hm, -⟩ := findRefused_mem hf
  obtain ⟨f1, f2⟩ := h.fresh _ hm
  simp only at f1 f2
  obtain ⟨rs, e1, e2, e3⟩ := insertReq_spec (q := (t, (l, r))) h.sorted f1
  have hok : ∀ x ∈ rs, x.1 ≠ 0 ∧ Lockable (mkRange (cfg := cfg) x.2.1 x.2.2) := by
    intro x hx
    rcases (e3 x).mp hx with rfl | hx
    · exact h.rok _ hm
    · exact h.ok x hx
  obtain ⟨d, g1, g2, g3⟩ := detector_spec h.inv e2 hok (t := t) (l := l) (r := r) ((e3 _).mpr (.inl rfl)) f2
  have hwf : ∀ a b, WaitsFor s.sys rs a b ↔ WaitsFor s.sys ((t, (l, r)) :: s.reqs) a b := by
    intro a b
    have hk : b ∈ rs.map (·.1) ↔ b ∈ ((t, (l, r)) :: s.reqs).map (·.1) := by
      simp only [List.mem_map, List.mem_cons, e3]
    unfold WaitsFor
    simp only [hk, e3, List.mem_cons]
  have hg2 : (∀ b ∈ cs, b ∈ s.reqs.map (·.1) → Conflicts s.sys t b l r) → d = true →
      TransGen (WaitsFor s.sys ((t, (l, r)) :: s.reqs)) t t := by
    intro hh hd
    refine transGen_mono (fun a b => (hwf a b).mp) (g2 (fun b hb hbm => hh b hb ?_) hd)
    obtain ⟨y, hy, hyb⟩ := List.mem_map.mp hbm
    rcases (e3 y).mp hy with rfl | hy
    · simp only at hyb; subst hyb; exact absurd hb f2
    · exact List.mem_map.mpr ⟨y, hy, hyb⟩
  have hg3 : (∀ b, Conflicts s.sys t b l r → b ∈ cs) → TransGen (WaitsFor s.sys ((t, (l, r)) :: s.reqs)) t t → d = true :=
    fun hh hc => g3 hh (transGen_mono (fun a b => (hwf a b).mpr) hc)
  simp only [wstep, hf, e1, Option.bind_some, g1]
  cases d with
  | true =>
    simp only [if_true]
    rw [removeReq_spec (List.mem_map.mpr ⟨_, (e3 _).mpr (.inl rfl), rfl⟩)]
    refine ⟨_, _, rfl, rfl, .inl rfl, ?_, (fun h => nomatch h), rfl, fun hh _ => hg2 hh rfl, fun _ _ => rfl⟩
    intro _ x
    rw [mem_filterReq, e3]
    constructor
    · rintro ⟨rfl | h', hne⟩
      · exact absurd rfl hne
      · exact h'
    · intro hx
      refine ⟨.inr hx, fun he => f1 ?_⟩
      have he : x.1 = t := he
      exact he ▸ List.mem_map_of_mem (f := (·.1)) hx
  | false =>
    simp only [Bool.false_eq_true, if_false]
    exact ⟨_, _, rfl, rfl, .inr rfl, (fun h => nomatch h), fun _ => e3, rfl, (fun _ h => nomatch h),
      fun hh hc => absurd (hg3 hh hc) (by simp)⟩

/-- C25.  When a refused request is put among the waiting ones and the conflicts it was told are still the
transactions in its way, the answer is "deadlock" exactly if the request closes a cycle of waiting transactions;
otherwise it waits. -/
theorem C25_check_is_exact {base : Nat} {s : WSys cfg} (h : WReach base s) {t : Txn} {l r : Pt} {cs : List Txn}
    (hf : findRefused t s.refused = some ((t, (l, r)), cs)) (hcs : ∀ u, u ∈ cs ↔ Conflicts s.sys t u l r) :
    ∃ s' a, wstep s (.enqueue t) = some (s', a) ∧ (a = .deadlock ∨ a = .waiting) ∧
      (a = .deadlock ↔ TransGen (WaitsFor s.sys ((t, (l, r)) :: s.reqs)) t t) := by
  obtain ⟨s', a, e1, -, e3, -, -, -, e7, e8⟩ := enqueue_spec h.winv hf
  exact ⟨s', a, e1, e3, e7 (fun b hb _ => (hcs b).mp hb), e8 (fun b hb => (hcs b).mpr hb)⟩

/-! ### C25: every reported deadlock is real -/

/-- `e` makes `t` give locks back. -/
def WEv.ends : WEv cfg → Txn → Prop
  | .other e, t => e.releases = some t
  | _, _ => False

/-- `e` makes `t` ask for a lock. -/
def WEv.asks : WEv cfg → Txn → Prop
  | .attempt u _ _ _, t => u = t
  | _, _ => False

/-- Whoever has begun to give locks back never asks again: a transaction releases when it ends, and ids are not
reused. -/
def TwoPhase (es : List (WEv cfg)) : Prop := es.Pairwise fun e e' => ∀ t, e.ends t → ¬ e'.asks t

/-- Whatever a transaction was told is in its way is still there, unless it is gone. -/
structure Told (gone : Txn → Prop) (s : WSys cfg) : Prop where
  told : ∀ q ∈ s.refused, ∀ b ∈ q.2, gone b ∨ Conflicts s.sys q.1.1 b q.1.2.1 q.1.2.2
  reqs : ∀ b ∈ s.reqs.map (·.1), ¬ gone b
  refused : ∀ q ∈ s.refused, ¬ gone q.1.1

theorem conflicts_keep {base : Nat} {s s' : Sys cfg} (h : Inv base s) {e : Ev cfg} (he : EvOk e) {res : Result}
    (hs : step s e = some (s', res)) {a b : Txn} {l r : Pt} (hb : e.releases ≠ some b) (hc : Conflicts s a b l r) :
    Conflicts s' a b l r := by
  obtain ⟨h1, p, h2, h3⟩ := hc
  exact ⟨h1, p, h2, step_keeps h he hs hb h3⟩

theorem told_step {base : Nat} {s s' : WSys cfg} (h : WInv base s) {gone : Txn → Prop} (ht : Told gone s) {e : WEv cfg}
    (he : WEvOk e) {a : Answer} (hs : wstep s e = some (s', a)) (hg : ∀ t, e.asks t → ¬ gone t) :
    Told (fun t => gone t ∨ (e.ends t ∧ quiet s t = true)) s' := by
  cases e with
  | attempt t l r sp =>
    simp only [WEv.ends, false_and, or_false]
    simp only [wstep] at hs
    split at hs
    · rename_i hq
      obtain ⟨s1, res, e1, -, e3⟩ := step_spec h.inv (.acquire t l r sp) he
      rw [e1] at hs
      simp only [Option.map_some, Option.some.injEq] at hs
      have hold : ∀ q ∈ s.refused, ∀ b ∈ q.2, gone b ∨ Conflicts s1 q.1.1 b q.1.2.1 q.1.2.2 := by
        intro q hq b hb
        exact (ht.told q hq b hb).imp_right (conflicts_keep h.inv (e := .acquire t l r sp) he e1 (by simp [Ev.releases]))
      cases res with
      | notGranted cs =>
        simp only [Prod.mk.injEq] at hs
        obtain ⟨rfl, -⟩ := hs
        refine ⟨?_, ht.reqs, ?_⟩
        · intro q hq b hb
          rcases List.mem_cons.mp hq with rfl | hq
          · rcases e3 with ⟨h', -⟩ | ⟨-, h', -⟩ | ⟨-, sl, cs', h', -, hcs⟩
            · cases h'
            · cases h'
            · cases h'
              obtain ⟨g1, p, g2, g3⟩ := (hcs b).mp hb
              exact .inr ⟨g1, p, g2, (sl.owns b p).mpr g3⟩
          · exact hold q hq b hb
        · intro q hq
          rcases List.mem_cons.mp hq with rfl | hq
          · exact hg t rfl
          · exact ht.refused q hq
      | granted => simp only [Prod.mk.injEq] at hs; obtain ⟨rfl, -⟩ := hs; exact ⟨hold, ht.reqs, ht.refused⟩
      | outOfLocks => simp only [Prod.mk.injEq] at hs; obtain ⟨rfl, -⟩ := hs; exact ⟨hold, ht.reqs, ht.refused⟩
      | none => simp only [Prod.mk.injEq] at hs; obtain ⟨rfl, -⟩ := hs; exact ⟨hold, ht.reqs, ht.refused⟩
    · cases hs; exact ht
  | enqueue t =>
    simp only [WEv.ends, false_and, or_false]
    cases hf : findRefused t s.refused with
    | none => simp only [wstep, hf] at hs; cases hs; exact ht
    | some q =>
      obtain ⟨⟨t', l, r⟩, cs⟩ := q
      obtain ⟨hm, hqt⟩ := findRefused_mem hf
      simp only at hqt; subst hqt
      obtain ⟨s1, a1, e1, e2, e3, e4, e5, e6, -⟩ := enqueue_spec h hf
      rw [hs] at e1; cases e1
      have hsub : ∀ q ∈ s'.refused, q ∈ s.refused := fun q hq => by rw [e6] at hq; exact (List.mem_filter.mp hq).1
      refine ⟨fun q hq b hb => by rw [e2]; exact ht.told q (hsub q hq) b hb, ?_, fun q hq => ht.refused q (hsub q hq)⟩
      intro b hb
      obtain ⟨y, hy, rfl⟩ := List.mem_map.mp hb
      rcases e3 with ha | ha
      · exact ht.reqs _ (List.mem_map_of_mem ((e4 ha y).mp hy))
      · rcases (e5 ha y).mp hy with rfl | hy
        · exact ht.refused _ hm
        · exact ht.reqs _ (List.mem_map_of_mem hy)
  | retry t sp =>
    simp only [WEv.ends, false_and, or_false]
    simp only [wstep] at hs
    split at hs
    · rename_i p hf
      have hm := findReq_mem hf
      obtain ⟨s1, res, e1, -, -⟩ := step_spec h.inv (.acquire t p.1 p.2 sp) (h.ok _ hm)
      rw [e1] at hs
      simp only [Option.bind_some] at hs
      have hold : ∀ q ∈ s.refused, ∀ b ∈ q.2, gone b ∨ Conflicts s1 q.1.1 b q.1.2.1 q.1.2.2 := by
        intro q hq b hb
        exact (ht.told q hq b hb).imp_right
          (conflicts_keep h.inv (e := .acquire t p.1 p.2 sp) (h.ok _ hm) e1 (by simp [Ev.releases]))
      cases res with
      | granted =>
        rw [removeReq_spec (List.mem_map_of_mem (f := (·.1)) hm)] at hs
        simp only [Option.map_some, Option.some.injEq, Prod.mk.injEq] at hs
        obtain ⟨rfl, -⟩ := hs
        refine ⟨hold, fun b hb => ?_, ht.refused⟩
        obtain ⟨y, hy, rfl⟩ := List.mem_map.mp hb
        exact ht.reqs _ (List.mem_map_of_mem (mem_filterReq.mp hy).1)
      | notGranted => cases hs; exact ⟨hold, ht.reqs, ht.refused⟩
      | outOfLocks => cases hs; exact ⟨hold, ht.reqs, ht.refused⟩
      | none => cases hs; exact ⟨hold, ht.reqs, ht.refused⟩
    · cases hs; exact ht
  | giveUp t =>
    simp only [WEv.ends, false_and, or_false]
    simp only [wstep] at hs
    split at hs
    · rename_i p hf
      rw [removeReq_spec (List.mem_map_of_mem (f := (·.1)) (findReq_mem hf))] at hs
      cases hs
      refine ⟨ht.told, fun b hb => ?_, ht.refused⟩
      obtain ⟨y, hy, rfl⟩ := List.mem_map.mp hb
      exact ht.reqs _ (List.mem_map_of_mem (mem_filterReq.mp hy).1)
    · cases hs; exact ht
  | other e =>
    have key : EvOk e → (if e.actor.all (quiet s) then (step s.sys e).map fun q => (({ s with sys := q.1 } : WSys cfg), Answer.none)
        else some (s, .none)) = some (s', a) → Told (fun t => gone t ∨ (WEv.ends (.other e) t ∧ quiet s t = true)) s' := by
      intro hok hs
      split at hs
      · rename_i hq
        obtain ⟨s1, res, e1, -, -⟩ := step_spec h.inv e hok
        rw [e1] at hs
        simp only [Option.map_some, Option.some.injEq, Prod.mk.injEq] at hs
        obtain ⟨rfl, -⟩ := hs
        have hquiet : ∀ t, e.releases = some t → quiet s t = true := by
          intro t ht'
          cases e <;> simp only [Ev.releases] at ht' <;> try cases ht'
          · simpa [Ev.actor] using hq
          · simpa [Ev.actor] using hq
        refine ⟨?_, ?_, ?_⟩
        · intro q hq b hb
          by_cases hb' : e.releases = some b
          · exact .inl (.inr ⟨hb', hquiet b hb'⟩)
          · exact (ht.told q hq b hb).imp .inl (conflicts_keep h.inv hok e1 hb')
        · rintro b hb (hg' | ⟨-, this⟩)
          · exact ht.reqs b hb hg'
          · simp only [quiet, Bool.and_eq_true, Option.isNone_iff_eq_none] at this
            exact findReq_none.mp this.1 hb
        · rintro q hq (hg' | ⟨-, this⟩)
          · exact ht.refused q hq hg'
          · simp only [quiet, Bool.and_eq_true, Bool.not_eq_true', List.any_eq_false] at this
            exact this.2 q hq (by simp)
      · cases hs
        rename_i hq
        have hno : ∀ t, ¬ (WEv.ends (.other e) t ∧ quiet s t = true) := by
          rintro t ⟨h1, h2⟩
          apply hq
          cases e <;> simp only [WEv.ends, Ev.releases] at h1 <;> first | (cases h1; done) | (cases h1; simpa [Ev.actor] using h2)
        exact ⟨fun q hq b hb => (ht.told q hq b hb).imp_left .inl, fun b hb h' => h'.elim (ht.reqs b hb) (hno b),
          fun q hq h' => h'.elim (ht.refused q hq) (hno _)⟩
    cases e with
    | acquire => cases hs; exact ⟨fun q hq b hb => (ht.told q hq b hb).imp_left .inl, fun b hb h' => h'.elim (ht.reqs b hb) (fun h => nomatch h.1),
        fun q hq h' => h'.elim (ht.refused q hq) (fun h => nomatch h.1)⟩
    | tryAcquire => cases hs; exact ⟨fun q hq b hb => (ht.told q hq b hb).imp_left .inl, fun b hb h' => h'.elim (ht.reqs b hb) (fun h => nomatch h.1),
        fun q hq h' => h'.elim (ht.refused q hq) (fun h => nomatch h.1)⟩
    | _ => exact key trivial hs

theorem told_run {base : Nat} (es : List (WEv cfg)) {s s' : WSys cfg} (h : WInv base s) {gone : Txn → Prop} (ht : Told gone s)
    (he : ∀ e ∈ es, WEvOk e) {as : List Answer} (hr : wrun s es = some (s', as)) (h2 : TwoPhase es)
    (hg : ∀ e ∈ es, ∀ t, e.asks t → ¬ gone t) : ∃ gone', Told gone' s' := by
  induction es generalizing s gone as with
  | nil => simp only [wrun, Option.some.injEq, Prod.mk.injEq] at hr; obtain ⟨rfl, -⟩ := hr; exact ⟨gone, ht⟩
  | cons e es ih =>
    obtain ⟨s1, a, e1, e2⟩ := wstep_spec h e (he e (by simp))
    simp only [wrun, e1, Option.bind_some, Option.map_eq_some_iff] at hr
    obtain ⟨⟨s2, as2⟩, hr, hab⟩ := hr
    simp only [Prod.mk.injEq] at hab
    obtain ⟨rfl, -⟩ := hab
    have hp := List.pairwise_cons.mp h2
    refine ih e2 (told_step h ht (he e (by simp)) e1 (hg e (by simp))) (fun x hx => he x (by simp [hx])) hr hp.2 ?_
    rintro x hx t hax (hgt | ⟨hend, -⟩)
    · exact hg x (by simp [hx]) t hax hgt
    · exact hp.1 x hx t hend hax

/-- C25, no false alarms.  Under any interleaving, with escalations, and although the conflicts are looked up before
the request mutex is taken: if transactions release only at their end, a request that is answered "deadlock" does
close a cycle of waiting transactions. -/
theorem C25_reported_deadlock_is_real {base : Nat} {es : List (WEv cfg)} (he : ∀ e ∈ es, WEvOk e) (h2 : TwoPhase es)
    {s s' : WSys cfg} {as : List Answer} (hr : wrun (WSys.init base) es = some (s, as)) {t : Txn}
    (hd : wstep s (.enqueue t) = some (s', .deadlock)) :
    ∃ l r cs, ((t, (l, r)), cs) ∈ s.refused ∧ TransGen (WaitsFor s.sys ((t, (l, r)) :: s.reqs)) t t := by
  have hw : WInv base s := WReach.winv ⟨es, as, he, hr⟩
  obtain ⟨gone, ht⟩ := told_run es (winv_init base) (gone := fun _ => False)
    ⟨by simp [WSys.init], by simp [WSys.init], by simp [WSys.init]⟩ he hr h2 (fun _ _ _ _ h => h)
  cases hf : findRefused t s.refused with
  | none => simp only [wstep, hf] at hd; cases hd
  | some q =>
    obtain ⟨⟨t', l, r⟩, cs⟩ := q
    obtain ⟨hm, hqt⟩ := findRefused_mem hf
    simp only at hqt; subst hqt
    obtain ⟨s1, a1, e1, -, -, -, -, -, e7, -⟩ := enqueue_spec hw hf
    rw [hd] at e1; cases e1
    refine ⟨l, r, cs, hm, e7 (fun b hb hbm => ?_) rfl⟩
    exact (ht.told _ hm b hb).resolve_left (ht.reqs b hbm)

/-! ### C25: no deadlock among waiting transactions -/

/-- What happens one after the other when an attempt and the enqueueing of the refused request are not separated and
nothing is escalated. -/
inductive Block (cfg : Cfg) where
  | start (t : Txn) (l r : Pt) (samePtr : Bool)
  | retry (t : Txn) (samePtr : Bool)
  | giveUp (t : Txn)
  | other (e : Ev cfg) (notEscalate : ∀ a b, e ≠ .escalate a b)

def Block.events : Block cfg → List (WEv cfg)
  | .start t l r sp => [.attempt t l r sp, .enqueue t]
  | .retry t sp => [.retry t sp]
  | .giveUp t => [.giveUp t]
  | .other e _ => [.other e]

/-- A cycle that does not pass through `t` does not need `t`'s edges. -/
theorem cycle_avoids {R S : Txn → Txn → Prop} {t : Txn} (h : ∀ a b, a ≠ t → b ≠ t → R a b → S a b)
    (hS : ∀ a, ¬ TransGen S a a) (hR : ¬ TransGen R t t) (a : Txn) : ¬ TransGen R a a := by
  intro hc
  obtain ⟨l, hl⟩ := steps_iff.mp hc
  by_cases hat : a = t
  · subst hat; exact hR hc
  by_cases htl : t ∈ l
  · obtain ⟨p, q, rfl⟩ := List.append_of_mem htl
    obtain ⟨h1, h2⟩ := hl.split
    exact hR ((steps_iff.mpr ⟨_, h2⟩).trans (steps_iff.mpr ⟨_, h1⟩))
  · refine hS a (steps_iff.mpr ⟨l, ?_⟩)
    have : ∀ (l : List Txn) (x : Txn), x ≠ t → t ∉ l → Steps R x l a → Steps S x l a := by
      intro l
      induction l with
      | nil => intro x hx _ hh; exact h x a hx hat hh
      | cons y l ih =>
        intro x hx hy hh
        simp only [List.mem_cons, not_or] at hy
        exact ⟨h x y hx (fun e => hy.1 e.symm) hh.1, ih y (fun e => hy.1 e.symm) hy.2 hh.2⟩
    exact this l a hat htl hl

/-- Events that do not escalate give nobody new locks except a granted requester. -/
theorem locks_grow {base : Nat} {s s' : Sys cfg} (h : Inv base s) {e : Ev cfg} (he : EvOk e) {res : Result}
    (hs : step s e = some (s', res)) (h1 : ∀ a b, e ≠ .escalate a b) (h2 : ∀ t l r sp big a b, e ≠ .tryAcquire t l r sp big a b)
    {u : Txn} {p : Pt} (hl : Locks s' u p) : Locks s u p ∨ (res = .granted ∧ ∃ l r sp, e = .acquire u l r sp) := by
  obtain ⟨s1, r1, e1, -, e3⟩ := step_spec h e he
  rw [hs] at e1
  simp only [Option.some.injEq, Prod.mk.injEq] at e1
  obtain ⟨rfl, rfl⟩ := e1
  have same : tableLocks s'.lt = tableLocks s.lt → Locks s u p := by intro h'; unfold Locks; rw [← h']; exact hl
  have sub : (tableLocks s'.lt).Sublist (tableLocks s.lt) → Locks s u p := by
    intro h'
    obtain ⟨x, hx, hh⟩ := hl
    exact ⟨x, h'.subset hx, hh⟩
  cases e with
  | acquire t l r sp =>
    rcases e3 with ⟨-, h'⟩ | ⟨-, hres, g⟩ | ⟨-, sl, -⟩
    · exact .inl (same h')
    · rcases (g.owns u p).mp hl with h' | ⟨rfl, -⟩
      · exact .inl h'
      · exact .inr ⟨hres, l, r, sp, rfl⟩
    · exact .inl ((sl.owns u p).mp hl)
  | tryAcquire t l r sp big a b => exact absurd rfl (h2 t l r sp big a b)
  | escalate a b => exact absurd rfl (h1 a b)
  | note t sp => exact .inl (same e3)
  | retire t => exact .inl (same e3)
  | relEnd t => exact .inl (same e3)
  | relStart t => exact .inl (sub e3.1)
  | relStep t => exact .inl (sub e3.1)

/-- A step from which no waiting transaction gains locks, and which adds no waiting request, adds no edge. -/
theorem waitsFor_sub {s s' : Sys cfg} {reqs reqs' : List Req} (hr : ∀ x ∈ reqs', x ∈ reqs)
    (hl : ∀ b ∈ reqs'.map (·.1), ∀ p, Locks s' b p → Locks s b p) {a b : Txn} (h : WaitsFor s' reqs' a b) :
    WaitsFor s reqs a b := by
  obtain ⟨l, r, h1, h2, h3, p, h4, h5⟩ := h
  obtain ⟨y, hy, hyb⟩ := List.mem_map.mp h2
  exact ⟨l, r, hr _ h1, List.mem_map.mpr ⟨y, hr y hy, hyb⟩, h3, p, h4, hl b h2 p h5⟩

/-- Between blocks nothing is refused and not yet enqueued, and no cycle exists. -/
structure Calm (s : WSys cfg) : Prop where
  refused : s.refused = []
  acyclic : ∀ a, ¬ TransGen (WaitsFor s.sys s.reqs) a a

theorem Calm.of_sub {s s' : WSys cfg} (h : Calm s) (h1 : s'.refused = []) (hr : ∀ x ∈ s'.reqs, x ∈ s.reqs)
    (hl : ∀ b ∈ s'.reqs.map (·.1), ∀ p, Locks s'.sys b p → Locks s.sys b p) : Calm s' :=
  ⟨h1, fun a hc => h.acyclic a (transGen_mono (fun _ _ => waitsFor_sub hr hl) hc)⟩

theorem calm_block {base : Nat} {s s' : WSys cfg} (h : WInv base s) (hc : Calm s) (b : Block cfg)
    (hb : ∀ e ∈ b.events, WEvOk e) {as : List Answer} (hr : wrun s b.events = some (s', as)) : Calm s' := by
  cases b with
  | start t l r sp =>
    have hok : WEvOk (.attempt t l r sp : WEv cfg) := hb _ (by simp [Block.events])
    obtain ⟨s1, a1, e1, e2⟩ := wstep_spec h (.attempt t l r sp) hok
    simp only [Block.events, wrun, e1, Option.bind_some, Option.map_some] at hr
    simp only [wstep] at e1
    split at e1
    · rename_i hq
      simp only [Bool.and_eq_true, quiet, Option.isNone_iff_eq_none, Bool.not_eq_true', List.any_eq_false] at hq
      have hnt := findReq_none.mp hq.1.1
      obtain ⟨s2, res, f1, -, f3⟩ := step_spec h.inv (.acquire t l r sp) hok
      rw [f1] at e1
      simp only [Option.map_some, Option.some.injEq] at e1
      have grow : ∀ b ∈ s.reqs.map (·.1), ∀ p, Locks s2 b p → Locks s.sys b p := by
        intro b hb p hp
        rcases locks_grow h.inv (e := .acquire t l r sp) hok f1 (fun _ _ h => nomatch h) (fun _ _ _ _ _ _ _ h => nomatch h) hp with h' | ⟨-, _, _, _, h'⟩
        · exact h'
        · cases h'; exact absurd hb hnt
      have plain : s1 = { s with sys := s2 } → Calm s' := by
        rintro rfl
        have : wstep ({ s with sys := s2 } : WSys cfg) (.enqueue t) = some ({ s with sys := s2 }, .none) := by
          simp only [wstep, hc.refused, findRefused]
        rw [this] at hr
        simp only [Option.bind_some, Option.map_some, Option.some.injEq, Prod.mk.injEq] at hr
        obtain ⟨rfl, -⟩ := hr
        exact hc.of_sub hc.refused (fun _ h => h) grow
      cases res with
      | granted => exact plain (by cases e1; rfl)
      | outOfLocks => exact plain (by cases e1; rfl)
      | none => exact plain (by cases e1; rfl)
      | notGranted cs =>
        rcases f3 with ⟨h', -⟩ | ⟨-, h', -⟩ | ⟨-, sl, cs', h', -, hcs⟩
        · cases h'
        · cases h'
        · cases h'
          simp only [Prod.mk.injEq] at e1
          obtain ⟨rfl, -⟩ := e1
          have hf : findRefused t (((t, (l, r)), cs) :: s.refused) = some ((t, (l, r)), cs) := by simp [findRefused]
          obtain ⟨s3, a3, g1, g2, g3, g4, g5, g6, g7, g8⟩ := enqueue_spec e2 hf
          rw [g1] at hr
          simp only [Option.bind_some, Option.map_some, Option.some.injEq, Prod.mk.injEq] at hr
          obtain ⟨rfl, -⟩ := hr
          have href : s3.refused = [] := by rw [g6, hc.refused]; simp
          have hcs' : ∀ b, Conflicts s2 t b l r → b ∈ cs := by
            rintro b ⟨k1, p, k2, k3⟩
            exact (hcs b).mpr ⟨k1, p, k2, (sl.owns b p).mp k3⟩
          rcases g3 with ha | ha
          · refine hc.of_sub href (fun x hx => (g4 ha x).mp hx) ?_
            rw [g2]
            intro b hb
            obtain ⟨y, hy, hyb⟩ := List.mem_map.mp hb
            exact grow b (List.mem_map.mpr ⟨y, (g4 ha y).mp hy, hyb⟩)
          · refine ⟨href, ?_⟩
            have hno : ¬ TransGen (WaitsFor s2 ((t, (l, r)) :: s.reqs)) t t := fun hh => by
              have := g8 hcs' hh; rw [ha] at this; cases this
            have hacy : ∀ a, ¬ TransGen (WaitsFor s2 ((t, (l, r)) :: s.reqs)) a a := by
              refine cycle_avoids (S := WaitsFor s.sys s.reqs) (t := t) ?_ hc.acyclic hno
              rintro a b hat hbt ⟨l', r', k1, k2, k3, p, k4, k5⟩
              simp only [List.mem_cons, Prod.mk.injEq, List.map_cons] at k1 k2
              have k1 := k1.resolve_left (fun h => hat h.1)
              have k2 := k2.resolve_left hbt
              exact ⟨l', r', k1, k2, k3, p, k4, grow b k2 p k5⟩
            intro a hh
            refine hacy a (transGen_mono ?_ hh)
            rintro a b ⟨l', r', k1, k2, k3⟩
            rw [g2] at k3
            obtain ⟨y, hy, hyb⟩ := List.mem_map.mp k2
            exact ⟨l', r', List.mem_cons.mpr ((g5 ha _).mp k1), List.mem_map.mpr ⟨y, List.mem_cons.mpr ((g5 ha y).mp hy), hyb⟩, k3⟩
    · cases e1
      have : wstep s (.enqueue t) = some (s, .none) := by simp only [wstep, hc.refused, findRefused]
      rw [this] at hr
      simp only [Option.bind_some, Option.map_some, Option.some.injEq, Prod.mk.injEq] at hr
      obtain ⟨rfl, -⟩ := hr
      exact hc
  | retry t sp =>
    simp only [Block.events, wrun, Option.map_some, Option.bind_eq_some_iff, Option.some.injEq, Prod.mk.injEq] at hr
    obtain ⟨⟨s1, a1⟩, hs, rfl, -⟩ := hr
    simp only [wstep] at hs
    split at hs
    · rename_i p hf
      have hm := findReq_mem hf
      obtain ⟨s2, res, e1, -, -⟩ := step_spec h.inv (.acquire t p.1 p.2 sp) (h.ok _ hm)
      rw [e1] at hs
      simp only [Option.bind_some] at hs
      have grow := fun {u q} => locks_grow (u := u) (p := q) h.inv (e := .acquire t p.1 p.2 sp) (h.ok _ hm) e1
        (fun _ _ h => nomatch h) (fun _ _ _ _ _ _ _ h => nomatch h)
      have stay : res ≠ .granted → s1 = { s with sys := s2 } → Calm s1 := by
        rintro hres rfl
        exact hc.of_sub hc.refused (fun _ h => h) (fun b _ p hp => (grow hp).resolve_right (fun h => hres h.1))
      cases res with
      | granted =>
        rw [removeReq_spec (List.mem_map_of_mem (f := (·.1)) hm)] at hs
        cases hs
        refine hc.of_sub hc.refused (fun x hx => (mem_filterReq.mp hx).1) ?_
        intro b hb q hq
        rcases grow hq with h' | ⟨-, _, _, _, h'⟩
        · exact h'
        · cases h'
          obtain ⟨y, hy, hyb⟩ := List.mem_map.mp hb
          exact absurd hyb (mem_filterReq.mp hy).2
      | notGranted => exact stay (fun h => nomatch h) (by cases hs; rfl)
      | outOfLocks => exact stay (fun h => nomatch h) (by cases hs; rfl)
      | none => exact stay (fun h => nomatch h) (by cases hs; rfl)
    · cases hs; exact hc
  | giveUp t =>
    simp only [Block.events, wrun, Option.map_some, Option.bind_eq_some_iff, Option.some.injEq, Prod.mk.injEq] at hr
    obtain ⟨⟨s1, a1⟩, hs, rfl, -⟩ := hr
    simp only [wstep] at hs
    split at hs
    · rename_i p hf
      rw [removeReq_spec (List.mem_map_of_mem (f := (·.1)) (findReq_mem hf))] at hs
      cases hs
      exact hc.of_sub hc.refused (fun x hx => (mem_filterReq.mp hx).1) (fun _ _ _ h => h)
    · cases hs; exact hc
  | other e hne =>
    simp only [Block.events, wrun, Option.map_some, Option.bind_eq_some_iff, Option.some.injEq, Prod.mk.injEq] at hr
    obtain ⟨⟨s1, a1⟩, hs, rfl, -⟩ := hr
    have key : EvOk e → (∀ t l r sp big a b, e ≠ .tryAcquire t l r sp big a b) → (∀ t l r sp, e ≠ .acquire t l r sp) →
        (if e.actor.all (quiet s) then (step s.sys e).map fun q => (({ s with sys := q.1 } : WSys cfg), Answer.none)
        else some (s, .none)) = some (s1, a1) → Calm s1 := by
      intro hok hn1 hn2 hs
      split at hs
      · obtain ⟨s2, res, e1, -, -⟩ := step_spec h.inv e hok
        rw [e1] at hs
        cases hs
        refine hc.of_sub hc.refused (fun _ h => h) (fun b _ p hp => ?_)
        exact (locks_grow h.inv hok e1 hne hn1 hp).resolve_right (fun h' => by obtain ⟨-, l, r, sp, h'⟩ := h'; exact hn2 _ _ _ _ h')
      · cases hs; exact hc
    cases e with
    | acquire => cases hs; exact hc
    | tryAcquire => cases hs; exact hc
    | _ => exact key trivial (fun _ _ _ _ _ _ _ h => nomatch h) (fun _ _ _ _ h => nomatch h) hs

/-- C25, partial.  As long as no other event comes between a refused attempt and its enqueueing and nothing is
escalated, the waiting transactions never form a cycle, whatever sequence of requests, retries, time-outs and
releases is run: every deadlock is refused at the moment it would arise.  Missing: the two cases shown below to break
it in the code, an event between attempt and enqueueing, and escalation while a request is pending. -/
theorem C25_waiting_never_cycles_partial {base : Nat} (bs : List (Block cfg)) (hb : ∀ b ∈ bs, ∀ e ∈ b.events, WEvOk e)
    {s : WSys cfg} {as : List Answer} (hr : wrun (WSys.init base) (bs.flatMap Block.events) = some (s, as)) (a : Txn) :
    ¬ TransGen (WaitsFor s.sys s.reqs) a a := by
  have gen : ∀ (bs : List (Block cfg)) (s0 : WSys cfg), (∀ b ∈ bs, ∀ e ∈ b.events, WEvOk e) → WInv base s0 → Calm s0 →
      ∀ as, wrun s0 (bs.flatMap Block.events) = some (s, as) → Calm s := by
    intro bs
    induction bs with
    | nil => intro s0 _ _ hc as hr; simp only [List.flatMap_nil, wrun, Option.some.injEq, Prod.mk.injEq] at hr; exact hr.1 ▸ hc
    | cons b bs ih =>
      intro s0 hb hi hc as hr
      obtain ⟨s1, as1, e1, e2⟩ := wrun_spec b.events hi (hb b (by simp))
      have app : ∀ (es es' : List (WEv cfg)) (x y : WSys cfg) (as : List Answer), wrun x es = some (y, as) →
          ∀ z as', wrun x (es ++ es') = some (z, as') → ∃ as'', wrun y es' = some (z, as'') := by
        intro es es'
        induction es with
        | nil => intro x y as h z as' h'; simp only [wrun, Option.some.injEq, Prod.mk.injEq] at h; obtain ⟨rfl, -⟩ := h; exact ⟨as', h'⟩
        | cons e es ih =>
          intro x y as h z as' h'
          simp only [wrun, Option.bind_eq_some_iff, Option.map_eq_some_iff, List.cons_append, Prod.mk.injEq] at h h'
          obtain ⟨q, k1, w, k2, rfl, -⟩ := h
          obtain ⟨q', k1', w', k2', rfl, -⟩ := h'
          rw [k1] at k1'; cases k1'
          exact ih q.1 w.1 w.2 k2 w'.1 w'.2 k2'
      obtain ⟨as2, e3⟩ := app b.events (bs.flatMap Block.events) s0 s1 as1 e1 s as (by simpa using hr)
      exact ih s1 (fun b' hb' => hb b' (by simp [hb'])) e2 (calm_block hi hc b (hb b (by simp)) e1) as2 e3
  refine (gen bs _ hb (winv_init base) ⟨rfl, ?_⟩ as hr).acyclic a
  intro a hc
  obtain ⟨c, l, r, h1, -⟩ := transGen_last hc
  simp [WSys.init] at h1

/-! ### Sample runs and the cases in which a deadlock is missed -/

instance : DecidableEq (List (Lock sampleCfg)) := inferInstance
instance : DecidableEq (List Req) := inferInstance

/-- One key. -/
def kk (n : UInt8) : Pt := .key [n]

theorem lockable_key (a b : UInt8) (h : (Pt.cmp Verif.Ft.memcmp (kk a) (kk b)).isLE = true) :
    Lockable (mkRange (cfg := sampleCfg) (kk a) (kk b)) :=
  ⟨by simp [mkRange, kk, Pt.size], by simp [mkRange, kk, Pt.size], h, (fun h => nomatch h), (fun h => nomatch h)⟩

/-- Two transactions lock a key each and then ask for the other's: the second is told. -/
def sampleBlocks : List (Block sampleCfg) :=
  [.start 1 (kk 1) (kk 1) true, .other (.note 1 true) (fun _ _ h => nomatch h),
   .start 2 (kk 2) (kk 3) false, .other (.note 2 false) (fun _ _ h => nomatch h),
   .start 1 (kk 3) (kk 9) false, .start 2 (kk 0) (kk 1) false]

theorem sampleBlocks_ok : ∀ b ∈ sampleBlocks, ∀ e ∈ b.events, WEvOk e := by
  intro b hb e he
  simp only [sampleBlocks, List.mem_cons, List.not_mem_nil, or_false] at hb
  rcases hb with rfl | rfl | rfl | rfl | rfl | rfl <;>
    simp only [Block.events, List.mem_cons, List.not_mem_nil, or_false] at he <;>
    rcases he with rfl | rfl <;>
    first
    | exact trivial
    | exact ⟨by decide, lockable_key _ _ (by decide)⟩

theorem sampleBlocks_run :
    (wrun (WSys.init 1000 : WSys sampleCfg) (sampleBlocks.flatMap Block.events)).map (fun q => (q.2, q.1.reqs)) =
    some ([.granted, .none, .none, .granted, .none, .none, .none, .waiting, .none, .deadlock],
      [(1, (kk 3, kk 9))]) := by decide +kernel

/-- The last request of the sample meets the hypotheses of `C25_check_is_exact` and of `C25_reported_deadlock_is_real`:
it was refused because of 1, which waits for 2. -/
example : TwoPhase (sampleBlocks.flatMap Block.events) ∧
    (wrun (WSys.init 1000 : WSys sampleCfg) ((sampleBlocks.flatMap Block.events).take 9)).map
      (fun q => (findRefused 2 q.1.refused, tableLocks q.1.sys.lt)) =
    some (some ((2, (kk 0, kk 1)), [1]), [(⟨kk 1, kk 1⟩, 1), (⟨kk 2, kk 3⟩, 2)]) := by
  refine ⟨?_, by decide +kernel⟩
  simp [TwoPhase, sampleBlocks, Block.events, WEv.ends, Ev.releases]

/-- An event between attempt and enqueueing: 1 is refused [1, 10] because 2 holds 1.  Before 1 is put among the waiting
requests, 3 is granted 5, asks for 20, which 1 holds, and starts to wait, since 1 does not wait yet.  Then 1 starts to
wait with the conflicts it was told, which do not include 3.  Later 2 ends and both requests are tried again. -/
def raceRun : List (WEv sampleCfg) :=
  [.attempt 1 (kk 20) (kk 20) true, .other (.note 1 true),
   .attempt 2 (kk 1) (kk 1) true, .other (.note 2 true),
   .attempt 1 (kk 1) (kk 10) false,
   .attempt 3 (kk 5) (kk 5) true, .other (.note 3 true),
   .attempt 3 (kk 20) (kk 20) true, .enqueue 3,
   .enqueue 1,
   .other (.retire 2), .other (.relStart 2), .other (.relStep 2), .other (.relEnd 2), .retry 1 false, .retry 3 true]

theorem raceRun_ok : ∀ e ∈ raceRun, WEvOk e := by
  intro e he
  simp only [raceRun, List.mem_cons, List.not_mem_nil, or_false] at he
  rcases he with rfl | rfl | rfl | rfl | rfl | rfl | rfl | rfl | rfl | rfl | rfl | rfl | rfl | rfl | rfl | rfl <;>
    first
    | exact trivial
    | exact ⟨by decide, lockable_key _ _ (by decide)⟩

theorem raceRun_run :
    (wrun (WSys.init 1000 : WSys sampleCfg) raceRun).map (fun q => (q.2, q.1.reqs, tableLocks q.1.sys.lt)) =
    some ([.granted, .none, .granted, .none, .none, .granted, .none, .none, .waiting, .waiting, .none, .none, .none, .none,
        .waiting, .waiting],
      [(1, (kk 1, kk 10)), (3, (kk 20, kk 20))], [(⟨kk 5, kk 5⟩, 3), (⟨kk 20, kk 20⟩, 1)]) := by decide +kernel

/-- C25 fails in the code when another request is granted between a refused attempt and its enqueueing: no request is
answered "deadlock", yet 1 and 3 wait for each other, and trying both again changes nothing. -/
theorem C25_missed_after_stale_conflicts : ∃ s : WSys sampleCfg, WReach 1000 s ∧ TwoPhase raceRun ∧
    (∃ as, wrun (WSys.init 1000) raceRun = some (s, as) ∧ Answer.deadlock ∉ as) ∧
    WaitsFor s.sys s.reqs 1 3 ∧ WaitsFor s.sys s.reqs 3 1 := by
  obtain ⟨q, hq, h⟩ := Option.map_eq_some_iff.mp raceRun_run
  simp only [Prod.mk.injEq] at h
  obtain ⟨h1, h2, h3⟩ := h
  refine ⟨q.1, ⟨raceRun, q.2, raceRun_ok, hq⟩, ?_, ⟨q.2, hq, by rw [h1]; decide⟩, ?_, ?_⟩
  · simp [TwoPhase, raceRun, WEv.ends, WEv.asks, Ev.releases]
  · refine ⟨kk 1, kk 10, by rw [h2]; decide, by rw [h2]; decide, by decide, kk 5, ⟨by decide, by decide⟩, ?_⟩
    unfold Locks; rw [h3]; exact ⟨_, List.mem_cons_self, rfl, by decide, by decide⟩
  · refine ⟨kk 20, kk 20, by rw [h2]; decide, by rw [h2]; decide, by decide, kk 20, ⟨by decide, by decide⟩, ?_⟩
    unfold Locks; rw [h3]; exact ⟨_, List.mem_cons_of_mem _ List.mem_cons_self, rfl, by decide, by decide⟩

/-- Escalation while a request is pending: 4 waits for 2, held by 5; 1 holds 1 and 3 and waits for 20, held by 4.  When
5 has released and before 4 is tried again, escalation merges the two locks of 1, over what 4 waits for. -/
def escalationRun : List (WEv sampleCfg) :=
  [.attempt 1 (kk 1) (kk 1) true, .other (.note 1 true),
   .attempt 5 (kk 2) (kk 2) true, .other (.note 5 true),
   .attempt 1 (kk 3) (kk 3) true, .other (.note 1 true),
   .attempt 4 (kk 20) (kk 20) true, .other (.note 4 true),
   .attempt 4 (kk 2) (kk 2) true, .enqueue 4,
   .attempt 1 (kk 20) (kk 20) true, .enqueue 1,
   .other (.retire 5), .other (.relStart 5), .other (.relStep 5), .other (.relEnd 5),
   .other (.escalate (fun _ => false) (fun _ => false)), .retry 4 true, .retry 1 true]

theorem escalationRun_ok : ∀ e ∈ escalationRun, WEvOk e := by
  intro e he
  simp only [escalationRun, List.mem_cons, List.not_mem_nil, or_false] at he
  rcases he with rfl | rfl | rfl | rfl | rfl | rfl | rfl | rfl | rfl | rfl | rfl | rfl | rfl | rfl | rfl | rfl | rfl | rfl | rfl <;>
    first
    | exact trivial
    | exact ⟨by decide, lockable_key _ _ (by decide)⟩

theorem escalationRun_run :
    (wrun (WSys.init 1000 : WSys sampleCfg) escalationRun).map (fun q => (q.2.drop 8, q.1.reqs, tableLocks q.1.sys.lt)) =
    some ([.none, .waiting, .none, .waiting, .none, .none, .none, .none, .none, .waiting, .waiting],
      [(1, (kk 20, kk 20)), (4, (kk 2, kk 2))], [(⟨kk 1, kk 3⟩, 1), (⟨kk 20, kk 20⟩, 4)]) := by decide +kernel

/-- C25 fails in the code when locks are escalated between a release and the retry of the requests it unblocks, even if
every request is enqueued at once: 1 and 4 wait for each other and nobody is told. -/
theorem C25_missed_after_escalation : ∃ s : WSys sampleCfg, WReach 1000 s ∧
    WaitsFor s.sys s.reqs 1 4 ∧ WaitsFor s.sys s.reqs 4 1 := by
  obtain ⟨q, hq, h⟩ := Option.map_eq_some_iff.mp escalationRun_run
  simp only [Prod.mk.injEq] at h
  obtain ⟨-, h2, h3⟩ := h
  refine ⟨q.1, ⟨escalationRun, q.2, escalationRun_ok, hq⟩, ?_, ?_⟩
  · refine ⟨kk 20, kk 20, by rw [h2]; decide, by rw [h2]; decide, by decide, kk 20, ⟨by decide, by decide⟩, ?_⟩
    unfold Locks; rw [h3]; exact ⟨_, List.mem_cons_of_mem _ List.mem_cons_self, rfl, by decide, by decide⟩
  · refine ⟨kk 2, kk 2, by rw [h2]; decide, by rw [h2]; decide, by decide, kk 2, ⟨by decide, by decide⟩, ?_⟩
    unfold Locks; rw [h3]; exact ⟨_, List.mem_cons_self, rfl, by decide, by decide⟩

end Verif.Lt
