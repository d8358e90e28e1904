import Verif.Roll.Step
/-!
C42: what is undone when a transaction aborts, and completed when a root transaction commits, in which order, and that the nodes
used to record it are all given back.
-/
namespace Verif.Roll.Props
open Verif.Roll Spec

variable {α : Type}

/-- C42.  In every state that can be reached by calls, every call that is allowed ends without a failed assertion, however many
nodes were spilled and however deep committed children are nested in each other, and has undone (or completed) exactly the
actions in the list of its transaction, the newest first. -/
theorem rollback_follows_history {limit max : Nat} {s : St α} {a : Abs α} (h : Reach limit max s a) (op : Op α) (hal : Allowed a op) (hf : Fresh s op) : ∃ s', Ends s op s' (shown a op) := by
  obtain ⟨⟨gh, ht⟩, _⟩ := reach_top h
  obtain ⟨s', _, he, _⟩ := step_top ht op hal hf
  exact ⟨s', he⟩

/-- C42, abort: the actions of the transaction and of its children that have committed are undone, newest first, each once. -/
theorem abort_undoes_newest_first {limit max : Nat} {s : St α} {a : Abs α} (h : Reach limit max s a) {t : Tid} {l : Live α} (hl : a t = some l) (hc : Childless a t) :
    ∃ s', Ends s (.abort t) s' l.acts.reverse := by
  obtain ⟨s', he⟩ := rollback_follows_history h (.abort t) ⟨by rw [hl]; simp, hc⟩ trivial
  refine ⟨s', ?_⟩
  simpa only [shown, hl] using he

/-- C42, commit of a root transaction: the same actions are completed, in the same order. -/
theorem root_commit_completes_newest_first {limit max : Nat} {s : St α} {a : Abs α} (h : Reach limit max s a) {t : Tid} {l : Live α} (hl : a t = some l) (hr : l.parent = none) (hc : Childless a t)
    {f1 f2 : Blk} (hf : Fresh s (.commit t f1 f2)) : ∃ s', Ends s (.commit t f1 f2) s' l.acts.reverse := by
  obtain ⟨par, xs⟩ := l
  cases hr
  obtain ⟨s', he⟩ := rollback_follows_history h (.commit t f1 f2) ⟨by rw [hl]; simp, hc⟩ hf
  refine ⟨s', ?_⟩
  simpa only [shown, hl] using he

/-- C42, commit of a child, and then abort of its parent: nothing is undone or completed by the commit; the abort undoes the
actions of the child and then those of the parent from before, and if the parent has done something since, that first. -/
theorem child_commit_then_abort {limit max : Nat} {s : St α} {a : Abs α} (h : Reach limit max s a) {t p : Tid} {xs : List α} {l : Live α} (hl : a t = some ⟨some p, xs⟩) (hp : a p = some l) (hc : Childless a t)
    (hcp : ∀ u m, a u = some m → m.parent = some p → u = t) {f1 f2 : Blk} (hf : Fresh s (.commit t f1 f2)) :
    ∃ s' s'', Ends s (.commit t f1 f2) s' [] ∧ Ends s' (.abort p) s'' (xs.reverse ++ l.acts.reverse) := by
  have hal : Allowed a (.commit t f1 f2) := ⟨by rw [hl]; simp, hc⟩
  obtain ⟨s', he⟩ := rollback_follows_history h (.commit t f1 f2) hal hf
  have hr' := Reach.step h hal hf he
  simp only [shown, hl] at he
  have hpt : p ≠ t := by
    rintro rfl
    exact hc p _ hl rfl
  have hp' : next a (.commit t f1 f2) p = some { l with acts := l.acts ++ xs } := by simp only [next, hl, hp, Spec.set, if_neg hpt, if_true]
  obtain ⟨s'', he'⟩ := abort_undoes_newest_first hr' hp' (by
    intro u m hm hpar
    simp only [next, hl, hp, Spec.set] at hm
    split at hm
    · cases hm
    · rename_i hut
      split at hm
      · rename_i hup
        cases hm
        exact hut (hcp u l (hup ▸ hp) hpar)
      · exact hut (hcp u m hm hpar))
  refine ⟨s', s'', he, ?_⟩
  simpa only [List.reverse_append] using he'

/-- When no transaction is live, every node of the rollback file is unused, and there are no more of them than the cache of unused
nodes holds. -/
theorem nodes_are_given_back {limit max : Nat} {s : St α} {a : Abs α} (h : Reach limit max s a) (hno : ∀ t, a t = none) :
    ∃ l : List Blk, l.length ≤ max ∧ ∀ b nd, s.nodes b = some nd → b ∈ l ∧ nd = .unused := by
  obtain ⟨⟨gh, ht⟩, hc⟩ := reach_top h
  refine ⟨s.ring.list, ?_, fun b nd hb => ?_⟩
  · have h1 := ht.inv.ringOk.num
    have h2 : s.ring.max = max := congrArg Prod.snd hc
    rw [Ring.list, List.length_map, List.length_range]
    omega
  · rcases ht.inv.cover b (by rw [hb]; simp) with h1 | h1 | ⟨t, h1⟩
    · refine ⟨h1, ?_⟩
      have := (ht.inv.ringNodes b h1).2
      rw [hb] at this
      cases this
      rfl
    · cases h1
    · rw [ht.inv.gone t (ht.dead t (hno t))] at h1
      cases h1

/-- The count of entries that is kept with a transaction (what progress reports are relative to) is met: when all is undone or
completed, as many entries have been processed as have been counted while they were recorded. -/
theorem every_entry_is_counted {limit max : Nat} {s : St α} {a : Abs α} (h : Reach limit max s a) {t : Tid} (hl : a t ≠ none) :
    ∃ i, s.txns t = some i ∧ i.done = 0 ∧ ∃ n s' out, (∀ m, n ≤ m → applyTxn m s t = .ok (s', out)) ∧ ∃ i', s'.txns t = some i' ∧ i'.done = i.total := by
  obtain ⟨⟨gh, ht⟩, _⟩ := reach_top h
  cases hat : a t with
  | none => exact absurd hat hl
  | some l =>
    obtain ⟨i, hi, _, _, it, id⟩ := ht.acts t l hat
    obtain ⟨n, s', hn, hf⟩ := applyTxn_ok (ht.inv.own t i hi) (ht.inv.nodup t) ht.inv.ringOk hi
    refine ⟨i, hi, id, n, s', _, hn, _, by rw [hf.txns, if_pos rfl], ?_⟩
    show i.done + _ = _
    rw [id, it, Nat.zero_add]

/-- The size of a node, which decides when it is spilled, is the size of its entries. -/
theorem node_size_is_exact {limit max : Nat} {s : St α} {a : Abs α} (h : Reach limit max s a) {b : Blk} {nd : Node α} (hb : s.nodes b = some nd) : nd.bytes = (nd.newest.map Entry.size).sum := by
  obtain ⟨⟨gh, ht⟩, _⟩ := reach_top h
  exact ht.inv.bytes b nd hb

/-! ### A case in which the hypotheses are met

Nodes are spilled above ten bytes, the cache holds one unused node.  Transaction 1 records `a`, `b`, then has a child, 2, that
records `c`, `d`, `e`, and a grandchild, 3, that records `f`; 3 commits, 2 records `g` and commits, 1 records `h`. -/

/-- The state after a call that needs no steps. -/
def after (s : St α) (op : Op α) : St α :=
  match run 0 s op with
  | .ok (s', _) => s'
  | _ => s

def ops : List (Op Char) :=
  [.begin 1 ⟨7, 0⟩ none, .act 1 'a' 8 20, .act 1 'b' 8 21, .begin 2 ⟨7, 1⟩ (some 1), .act 2 'c' 8 22, .act 2 'd' 30 23, .act 2 'e' 8 24, .begin 3 ⟨7, 2⟩ (some 2), .act 3 'f' 111 25,
   .commit 3 26 27, .act 2 'g' 5 28, .commit 2 29 30, .act 1 'h' 1 31]

def last : St Char := ops.foldl after (St.init 10 1)
def abs : Abs Char := ops.foldl next (fun _ => none)

/-- Calls that need no steps lead to a state that can be reached. -/
theorem reach_ops : ∀ (l : List (Op Char)) (s : St Char) (a : Abs Char), Reach 10 1 s a →
    (∀ k op, l[k]? = some op → Allowed ((l.take k).foldl next a) op ∧ Fresh ((l.take k).foldl after s) op ∧ ∀ m, run m ((l.take k).foldl after s) op = .ok (after ((l.take k).foldl after s) op, [])) →
    Reach 10 1 (l.foldl after s) (l.foldl next a)
  | [], _, _, h, _ => h
  | op :: l, s, a, h, hs => by
    obtain ⟨h1, h2, h3⟩ := hs 0 op rfl
    refine reach_ops l _ _ (.step h h1 h2 ⟨0, fun m _ => h3 m⟩) ?_
    intro k op' hk
    exact hs (k + 1) op' hk

theorem childless (a : Abs Char) (t : Tid) (h1 : ∀ l, a 1 = some l → l.parent ≠ some t) (h2 : ∀ l, a 2 = some l → l.parent ≠ some t)
    (h3 : ∀ l, a 3 = some l → l.parent ≠ some t) (ho : ∀ u, u ≠ 1 → u ≠ 2 → u ≠ 3 → a u = none) : Childless a t := by
  intro u l hl
  by_cases e1 : u = 1
  · subst e1; exact h1 l hl
  by_cases e2 : u = 2
  · subst e2; exact h2 l hl
  by_cases e3 : u = 3
  · subst e3; exact h3 l hl
  rw [ho u e1 e2 e3] at hl
  cases hl

/-- All these calls are allowed, and do what `after` says. -/
theorem each_allowed (k : Nat) (op : Op Char) (hk : ops[k]? = some op) :
    Allowed ((ops.take k).foldl next fun _ => none) op ∧ Fresh ((ops.take k).foldl after (St.init 10 1)) op ∧
      ∀ m, run m ((ops.take k).foldl after (St.init 10 1)) op = .ok (after ((ops.take k).foldl after (St.init 10 1)) op, []) := by
  have : k < 13 := by
    have := (List.getElem?_eq_some_iff.mp hk).1
    simpa [ops] using this
  have hk' : k = 0 ∨ k = 1 ∨ k = 2 ∨ k = 3 ∨ k = 4 ∨ k = 5 ∨ k = 6 ∨ k = 7 ∨ k = 8 ∨ k = 9 ∨ k = 10 ∨ k = 11 ∨ k = 12 := by omega
  rcases hk' with rfl | rfl | rfl | rfl | rfl | rfl | rfl | rfl | rfl | rfl | rfl | rfl | rfl
  all_goals (cases hk; refine ⟨?_, ?_, fun m => rfl⟩)
  all_goals first
    | exact ⟨rfl, by intro p hp; cases hp; intro e; cases e⟩
    | (intro e; cases e; done)
    | exact trivial
    | exact ⟨by decide, rfl⟩
    | exact ⟨⟨by decide, rfl⟩, ⟨by decide, rfl⟩, by decide⟩
    | exact ⟨(by intro e; cases e), childless _ _ (by intro l h; cases h; decide) (by intro l h; cases h; decide) (by intro l h; cases h; decide) (by intro u e1 e2 e3; simp [ops, next, Spec.set, e1, e2, e3])⟩
    | exact ⟨(by intro e; cases e), childless _ _ (by intro l h; cases h; decide) (by intro l h; cases h; decide) (by intro l h; cases h) (by intro u e1 e2 e3; simp [ops, next, Spec.set, e1, e2, e3])⟩
    | exact ⟨rfl, by intro p hp; cases hp⟩

theorem reached : Reach 10 1 last abs := reach_ops ops _ _ .init each_allowed

/-- The state before the call number `k`. -/
theorem reached_before (k : Nat) : Reach 10 1 ((ops.take k).foldl after (St.init 10 1)) ((ops.take k).foldl next fun _ => none) := by
  refine reach_ops (ops.take k) _ _ .init ?_
  intro j op hj
  obtain ⟨hlt, _⟩ := List.getElem?_eq_some_iff.mp hj
  have hjk : j < k := by rw [List.length_take] at hlt; omega
  rw [List.getElem?_take_of_lt hjk] at hj
  have := each_allowed j op hj
  rw [List.take_take, Nat.min_eq_left (Nat.le_of_lt hjk)]
  exact this

/-- The hypotheses of `abort_undoes_newest_first` are met; the nodes in use are five, one of them inside a child of a child. -/
example : ∃ s', Ends last (.abort 1) s' ['h', 'g', 'f', 'e', 'd', 'c', 'b', 'a'] :=
  abort_undoes_newest_first reached (l := ⟨none, ['a', 'b', 'c', 'd', 'e', 'f', 'g', 'h']⟩) rfl
    (childless _ _ (by intro l h; cases h; decide) (by intro l h; cases h) (by intro l h; cases h) (by intro u e1 e2 e3; simp [abs, ops, next, Spec.set, e1, e2, e3]))

example : ∃ s', Ends last (.commit 1 40 41) s' ['h', 'g', 'f', 'e', 'd', 'c', 'b', 'a'] :=
  root_commit_completes_newest_first reached (l := ⟨none, ['a', 'b', 'c', 'd', 'e', 'f', 'g', 'h']⟩) rfl rfl
    (childless _ _ (by intro l h; cases h; decide) (by intro l h; cases h) (by intro l h; cases h) (by intro u e1 e2 e3; simp [abs, ops, next, Spec.set, e1, e2, e3]))
    ⟨⟨by decide, rfl⟩, ⟨by decide, rfl⟩, by decide⟩

example : ((List.range 50).filter fun b => (last.nodes b).isSome) = [20, 22, 24, 25, 28, 29, 30] := by decide +kernel

/-- The hypotheses of `child_commit_then_abort` are met before the commit of transaction 3. -/
example : ∃ s' s'', Ends ((ops.take 9).foldl after (St.init 10 1)) (.commit 3 26 27) s' [] ∧ Ends s' (.abort 2) s'' (['f'] ++ ['e', 'd', 'c']) :=
  child_commit_then_abort (reached_before 9) (l := ⟨some 1, ['c', 'd', 'e']⟩) (xs := ['f']) rfl rfl
    (childless _ _ (by intro l h; cases h; decide) (by intro l h; cases h; decide) (by intro l h; cases h; decide) (by intro u e1 e2 e3; simp [ops, next, Spec.set, e1, e2, e3]))
    (by
      intro u m hm hp
      by_cases e1 : u = 1
      · subst e1; cases hm; cases hp
      by_cases e2 : u = 2
      · subst e2; cases hm; cases hp
      by_cases e3 : u = 3
      · exact e3
      · have : ((ops.take 9).foldl next fun _ => none) u = none := by simp [ops, next, Spec.set, e1, e2, e3]
        rw [this] at hm
        cases hm)
    ⟨⟨by decide, rfl⟩, ⟨by decide, rfl⟩, by decide⟩

/-- The hypotheses of `nodes_are_given_back` are met after the last transaction has ended. -/
example : ∃ s', Reach 10 1 s' (Spec.set abs 1 none) ∧ ∀ t, Spec.set abs 1 none t = none := by
  have hc : Childless abs 1 := childless _ _ (by intro l h; cases h; decide) (by intro l h; cases h) (by intro l h; cases h) (by intro u e1 e2 e3; simp [abs, ops, next, Spec.set, e1, e2, e3])
  obtain ⟨s', h⟩ := abort_undoes_newest_first reached (t := 1) (l := ⟨none, ['a', 'b', 'c', 'd', 'e', 'f', 'g', 'h']⟩) rfl hc
  refine ⟨s', .step (op := .abort 1) reached ⟨(by intro e; cases e), hc⟩ trivial h, ?_⟩
  intro t
  by_cases e1 : t = 1
  · simp [Spec.set, e1]
  by_cases e2 : t = 2
  · subst e2; rfl
  by_cases e3 : t = 3
  · subst e3; rfl
  simp [abs, ops, next, Spec.set, e1, e2, e3]

/-! ### The count of bytes misses a child

`rollback_raw_count` in `DB_TXN_STAT` is said to count every byte in the transaction and all its children (txn.h:112).  It does
not if all nodes of a child are spilled when it commits. -/

/-- Before the commit, the child has recorded 111 bytes; the count of the parent grows by 45, the size of the reference to the
child's nodes. -/
theorem raw_count_misses_spilled_child : ∃ (s s' : St Char) (a : Abs Char) (c p p' : Info), Reach 10 1 s a ∧ Ends s (.commit 3 26 27) s' [] ∧
    s.txns 3 = some c ∧ s.txns 2 = some p ∧ s'.txns 2 = some p' ∧ c.parent = some 2 ∧ ¬ p'.raw ≥ p.raw + c.raw := by
  refine ⟨(ops.take 9).foldl after (St.init 10 1), (ops.take 10).foldl after (St.init 10 1), _, _, _, _, reached_before 9, ⟨0, fun m _ => ?_⟩, rfl, rfl, rfl, rfl, ?_⟩
  · exact (each_allowed 9 _ rfl).2.2 m
  · decide +kernel

end Verif.Roll.Props
