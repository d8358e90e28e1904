import Verif.Tree.OptRun
import Verif.Tree.Props
/-!
C70: `DB->hot_optimize` brings what was written before it into the leaves, while others use the dictionary.
-/
namespace Verif.Tree
set_option linter.unusedSectionVars false
variable {K R B : Type} [LinearOrder K]

/-- Full statement, of inclusive bounds: when an optimization of the keys from `left` to `right` is done, no message sent before
it began waits in a buffer for any of these keys, whatever else was done meanwhile.
This is so for all keys but `left` itself (`C70_first_key_left_out`). -/
theorem C70_optimize_reaches_leaves_partial (sem : Sem K R B) (ops : List (Op K B)) (left right : Option K) (evs : List (HotEv K B))
    {t : Tree K R B} (ht : run sem Tree.empty ops = some t) {s : HotSt K R B} (hs : hotRun sem right (hotStart left t) evs = some s)
    (hd : s.done = true) (k : K) (hl : ∀ a, left = some a → a < k) (hr : ∀ b, right = some b → k ≤ b) :
    ∀ m ∈ waiting k s.tree.h s.tree.root, t.maxMsn < m.msn := by
  obtain ⟨u, h1, h2⟩ := run_ok (ops := ops) (empty_ok sem)
  rw [ht] at h1
  cases h1
  obtain ⟨s', h3, h4⟩ := hotRun_ok (evs := evs) (start_inv h2 left right)
  rw [hs] at h3
  cases h3
  exact waiting_of_slots (S := InB left right) ⟨hl, hr⟩ h4.ok (inB_none k) (h4.shut hd)

/-- With no bound on the left that is every key up to the right bound. -/
theorem C70_optimize_from_the_start (sem : Sem K R B) (ops : List (Op K B)) (right : Option K) (evs : List (HotEv K B))
    {t : Tree K R B} (ht : run sem Tree.empty ops = some t) {s : HotSt K R B} (hs : hotRun sem right (hotStart none t) evs = some s)
    (hd : s.done = true) (k : K) (hr : ∀ b, right = some b → k ≤ b) :
    ∀ m ∈ waiting k s.tree.h s.tree.root, t.maxMsn < m.msn :=
  C70_optimize_reaches_leaves_partial sem ops none right evs ht hs hd k (fun _ h => (by cases h)) hr

/-- All messages that wait in the buffers of a dictionary used this way have numbers up to the largest given. -/
theorem waiting_le {c : Ctx K R B} {k : K} : ∀ {h : Nat} {lo hi : Option K} {W : List (Ent K B)} {n : Node K R B h},
    Good c h lo hi W n → ∀ m ∈ waiting k h n, m.msn ≤ c.mx
  | 0, _, _, _, _, _, m, hm => absurd hm List.not_mem_nil
  | h + 1, lo, hi, W, n, hg, m, hm => by
    unfold waiting at hm
    cases hw : whichChild (Inner.kids n).length (Inner.pivots n) k with
    | none => rw [hw] at hm; exact absurd hm List.not_mem_nil
    | some i =>
      rw [hw] at hm
      simp only at hm
      cases hk : (Inner.kids n)[i]? with
      | none => rw [hk] at hm; exact absurd hm List.not_mem_nil
      | some p =>
        rw [hk] at hm
        obtain ⟨s, ch⟩ := p
        simp only at hm
        have hP := chain_get hg.2.2 hk
        rcases List.mem_append.1 hm with hm | hm
        · obtain ⟨m1, _⟩ := List.mem_filter.1 hm
          obtain ⟨e, he, rfl⟩ := List.mem_map.1 m1
          exact Nat.le_trans (hP.1.le e he) hg.1
        · exact waiting_le hP.2 m hm

theorem withRoot_num {t t' : Tree K R B} {r : Out (Node K R B t.h)} (h : t.withRoot r = .ok t') : t'.maxMsn = t.maxMsn := by
  unfold Tree.withRoot at h
  split at h
  · cases h; rfl
  · cases h
  · cases h

theorem step_num {sem : Sem K R B} {t t' : Tree K R B} {o : Op K B} (h : step sem t o = .ok t') (hq : sentBy o = []) :
    t'.maxMsn = t.maxMsn := by
  cases o with
  | put kind body depth => cases hq
  | flush path i cl => exact withRoot_num h
  | split path i mode => exact withRoot_num h
  | merge path i act => exact withRoot_num h
  | newRoot => cases h; rfl
  | write path limit => exact withRoot_num h
  | evict path which => exact withRoot_num h
  | moveStale path => exact withRoot_num h
  | reread path which => exact withRoot_num h
  | read route =>
    have h : (match readAt sem t.h none none [] route t.root with
      | .ok (_, n, _) => Out.ok { t with root := n }
      | .skip => .skip
      | .crash => .crash) = .ok t' := h
    split at h
    · cases h; rfl
    · cases h
    · cases h

theorem hotRun_num {sem : Sem K R B} {left right : Option K} {M : Nat} : ∀ {evs : List (HotEv K B)} {hist : List (Kind K × B)}
    {s s' : HotSt K R B}, HotInv sem hist left right M s → hotRun sem right s evs = some s' → sent (hotSent evs) = [] →
    s'.tree.maxMsn = s.tree.maxMsn
  | [], _, s, s', _, hr, _ => by cases hr; rfl
  | .op o :: evs, hist, s, s', h, hr, hq => by
    unfold hotRun at hr
    unfold hotSent at hq
    rw [sent_cons] at hq
    obtain ⟨q0, q1⟩ := List.append_eq_nil_iff.1 hq
    rcases step_ok h.ok o with ⟨p1, p2⟩ | ⟨t', p1, p2⟩
    · rw [p1] at hr
      exact hotRun_num h hr q1
    · rw [p1] at hr
      have := hotRun_num (op_inv h p1 p2) hr q1
      rw [this]
      simp only
      exact step_num p1 q0
  | .round cs :: evs, hist, s, s', h, hr, hq => by
    unfold hotRun at hr
    unfold hotSent at hq
    obtain ⟨u, p1, p2, _⟩ := round_ok h cs
    rw [p1] at hr
    rw [hotRun_num p2 hr hq]
    unfold hotRound at p1
    split at p1
    · cases p1; rfl
    · split at p1
      · cases p1; rfl
      · cases p1

/-- If nothing was written meanwhile, nothing at all waits for these keys any more. -/
theorem C70_quiet_optimize_empties_buffers (sem : Sem K R B) (ops : List (Op K B)) (left right : Option K) (evs : List (HotEv K B))
    (hq : sent (hotSent evs) = [])
    {t : Tree K R B} (ht : run sem Tree.empty ops = some t) {s : HotSt K R B} (hs : hotRun sem right (hotStart left t) evs = some s)
    (hd : s.done = true) (k : K) (hl : ∀ a, left = some a → a < k) (hr : ∀ b, right = some b → k ≤ b) :
    waiting k s.tree.h s.tree.root = [] := by
  have h0 := C70_optimize_reaches_leaves_partial sem ops left right evs ht hs hd k hl hr
  obtain ⟨u, h1, h2⟩ := run_ok (ops := ops) (empty_ok sem)
  rw [ht] at h1
  cases h1
  have hn := hotRun_num (start_inv h2 left right) hs hq
  obtain ⟨s', h3, h4⟩ := hotRun_ok (evs := evs) (start_inv h2 left right)
  rw [hs] at h3
  cases h3
  apply List.eq_nil_iff_forall_not_mem.2
  intro m hm
  have a := h0 m hm
  have b : m.msn ≤ s.tree.maxMsn := waiting_le h4.ok m hm
  have c : s.tree.maxMsn = t.maxMsn := hn
  omega

/-- An optimization never fails, and changes no answer: a query gives what the messages sent before and meanwhile make of the key. -/
theorem C70_optimize_changes_no_answer (sem : Sem K R B) (ops : List (Op K B)) (left right : Option K) (evs : List (HotEv K B)) :
    ∃ t s, run sem Tree.empty ops = some t ∧ hotRun sem right (hotStart left t) evs = some s ∧
      ∀ k, get sem s.tree k = .ok (rowAfter sem (sent ops ++ sent (hotSent evs)) k) := by
  obtain ⟨t, h1, h2⟩ := run_ok (ops := ops) (empty_ok sem)
  obtain ⟨s, h3, h4⟩ := hotRun_ok (evs := evs) (start_inv h2 left right)
  exact ⟨t, s, h1, h3, fun k => get_ok h4.ok k⟩

/-- Each round ends the optimization, or goes on further to the right than the one before. -/
theorem C70_each_round_advances (sem : Sem K R B) (ops : List (Op K B)) (left right : Option K) (evs : List (HotEv K B)) (cs : List React)
    {t : Tree K R B} (ht : run sem Tree.empty ops = some t) {s : HotSt K R B} (hs : hotRun sem right (hotStart left t) evs = some s) :
    ∃ s', hotRound sem right cs s = some s' ∧ (s'.done = true ∨ ∃ m, s'.high = some m ∧ ∀ b, s.high = some b → b < m) := by
  obtain ⟨u, h1, h2⟩ := run_ok (ops := ops) (empty_ok sem)
  rw [ht] at h1
  cases h1
  obtain ⟨s', h3, h4⟩ := hotRun_ok (evs := evs) (start_inv h2 left right)
  rw [hs] at h3
  cases h3
  obtain ⟨v, q1, _, q2⟩ := round_ok h4 cs
  exact ⟨v, q1, q2⟩

/-- With nobody else at work, and no child to be split or merged, it ends after at most one round more than there are pivots. -/
theorem C70_optimize_ends (sem : Sem K R B) (ops : List (Op K B)) (left right : Option K) {t : Tree K R B}
    (ht : run sem Tree.empty ops = some t) :
    ∃ s, hotRun sem right (hotStart left t) (List.replicate ((pivotsBelow t.h t.root).length + 1) (.round [])) = some s ∧ s.done = true := by
  obtain ⟨u, h1, h2⟩ := run_ok (ops := ops) (empty_ok sem)
  rw [ht] at h1
  cases h1
  exact quiet_ends _ (start_inv h2 left right) (Nat.lt_succ_of_le List.countP_le_length)

/-! ### Cases -/

/-- Two leaves split at 2, and messages waiting for all keys. -/
def waitingRoom : List (Op Nat (Option Nat × Nat)) :=
  [.put (.once 1) (some 10, 0) 0, .put (.once 2) (some 20, 0) 0, .put (.once 3) (some 30, 0) 0, .put (.once 4) (some 40, 0) 0,
   .newRoot, .split [] 0 .evenly, .put (.once 1) (some 11, 0) 0, .put (.once 2) (some 22, 0) 0, .put (.once 3) (some 33, 0) 0,
   .put (.once 4) (some 44, 0) 0, .put .all (some 1, 0) 0]

/-- Numbers of the messages waiting for the keys 1 to 4. -/
def waits (t : Tree Nat Nat (Option Nat × Nat)) : List (List Nat) := [1, 2, 3, 4].map fun k => (waiting k t.h t.root).map (·.msn)

example : (do
    let t ← run numbers Tree.empty waitingRoom
    let s ← hotRun numbers (some 4) (hotStart none t) [.round [], .op (.put (.once 2) (some 7, 1) 0), .round []]
    some (t.maxMsn, waits t, s.done, waits s.tree))
  = some (9, [[5, 9], [6, 9], [7, 9], [8, 9]], true, [[], [10], [], []]) := by decide +kernel

/-- An optimization of a part. -/
example : (do
    let t ← run numbers Tree.empty waitingRoom
    let s ← hotRun numbers (some 1) (hotStart none t) [.round []]
    some (s.done, waits s.tree)) = some (true, [[], [], [7, 9], [8, 9]]) := by decide +kernel

/-- A child split, and children merged. -/
example : (do
    let t ← run numbers Tree.empty waitingRoom
    let s ← hotRun numbers none (hotStart none t) [.round [.split], .round []]
    some (s.done, s.high, waits s.tree, pivotsBelow s.tree.h s.tree.root)) = some (false, some 2, [[], [], [7, 9], [8, 9]], [1, 2]) := by
  decide +kernel
example : (do
    let t ← run numbers Tree.empty waitingRoom
    let s ← hotRun numbers none (hotStart none t) [.round [.merge .merge], .round []]
    some (s.done, waits s.tree, pivotsBelow s.tree.h s.tree.root)) = some (true, [[], [], [], []], []) := by decide +kernel

/-- The first key itself may be left out: if `left` is where two nodes meet, `toku_ftnode_hot_next_child` begins with the node to
the right, and `left` belongs to the one to the left. -/
theorem C70_first_key_left_out : ∃ (ops : List (Op Nat (Option Nat × Nat))) (t : Tree Nat Nat (Option Nat × Nat))
    (s : HotSt Nat Nat (Option Nat × Nat)), run numbers Tree.empty ops = some t ∧
      hotRun numbers (some 4) (hotStart (some 2) t) [.round []] = some s ∧ s.done = true ∧
      ¬ ∀ k, 2 ≤ k → k ≤ 4 → ∀ m ∈ waiting k s.tree.h s.tree.root, t.maxMsn < m.msn := by
  have h : (do
      let t ← run numbers Tree.empty waitingRoom
      let s ← hotRun numbers (some 4) (hotStart (some 2) t) [.round []]
      some (s.done, t.maxMsn, (waiting 2 s.tree.h s.tree.root).map (·.msn))) = some (true, 9, [6, 9]) := by decide +kernel
  cases ht : run numbers Tree.empty waitingRoom with
  | none => rw [ht] at h; cases h
  | some t =>
    rw [ht] at h
    cases hs : hotRun numbers (some 4) (hotStart (some 2) t) [.round []] with
    | none => simp [hs] at h
    | some s =>
      simp only [Option.bind_eq_bind, Option.bind_some, hs, Option.some.injEq, Prod.mk.injEq] at h
      refine ⟨waitingRoom, t, s, ht, hs, h.1, fun hall => ?_⟩
      have hm : 6 ∈ (waiting 2 s.tree.h s.tree.root).map (·.msn) := by rw [h.2.2]; exact List.mem_cons_self
      obtain ⟨m, hm, h6⟩ := List.mem_map.1 hm
      have := hall 2 (Nat.le_refl _) (by omega) m hm
      rw [h6, h.2.1] at this
      omega

end Verif.Tree
