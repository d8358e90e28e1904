import Verif.Par.Model

/-!
# Properties of work by several threads (C98)
-/

namespace Verif.Par

/-- The part a thread works on. -/
def W.item : W → Option Nat
  | .has i => some i
  | _ => none

def C.item : C → Option Nat
  | .work w => w.item
  | _ => none

/-- Parts that are being worked on. -/
def St.held (s : St) : List Nat := s.ths.filterMap W.item ++ s.caller.item.toList

/-- Threads that have not given their reference back. -/
def W.on (w : W) : Bool := decide (w ≠ .gone)

def St.live (s : St) : Nat := (s.ths.filter W.on).length

/-- The caller has counted the threads. -/
def C.past : C → Bool
  | .run => false
  | .add => false
  | _ => true

/-- The caller has given its reference back. -/
def C.left : C → Bool
  | .join => true
  | .wait => true
  | .ret => true
  | _ => false

structure Inv (n max : Nat) (s : St) : Prop where
  parts : ∀ i, s.todo.count i + s.held.count i + s.done.count i = (List.range n).count i
  refs : s.refs + (if s.caller.past then 0 else (s.ths.length : Int)) + (if s.caller.left then 1 else 0) = 1 + s.live
  sleep : s.caller = .wait → s.live ≠ 0
  fin : s.caller = .ret → s.live = 0
  empty : (.out ∈ s.ths ∨ .gone ∈ s.ths ∨ s.caller = .work .out ∨ s.caller.left = true) → s.todo = []
  nogone : s.caller ≠ .work .gone
  few : s.max = max ∧ s.ths.length ≤ max

theorem inv_init (n max : Nat) : Inv n max (.init n max) where
  parts := fun i => by simp [St.init, St.held, C.item]
  refs := by simp [St.init, St.live, C.past, C.left]
  sleep := fun h => by cases h
  fin := fun h => by cases h
  empty := fun h => by rcases h with h | h | h | h <;> cases h
  nogone := fun h => by cases h
  few := ⟨rfl, Nat.zero_le _⟩

theorem wake_past (c : C) (b : Bool) : (c.wake b).past = c.past := by
  unfold C.wake; split
  · rename_i h; rw [h.2]; rfl
  · rfl

theorem wake_left (c : C) (b : Bool) : (c.wake b).left = c.left := by
  unfold C.wake; split
  · rename_i h; rw [h.2]; rfl
  · rfl

theorem wake_item (c : C) (b : Bool) : (c.wake b).item = c.item := by
  unfold C.wake; split
  · rename_i h; rw [h.2]; rfl
  · rfl

theorem wake_work (c : C) (b : Bool) (w : W) : c.wake b = .work w → c = .work w := by
  unfold C.wake; split
  · exact fun h => by cases h
  · exact id

theorem wake_ret (c : C) (b : Bool) : c.wake b = .ret → c = .ret := by
  unfold C.wake; split
  · exact fun h => by cases h
  · exact id

theorem wake_wait (c : C) (b : Bool) : c.wake b = .wait → c = .wait ∧ b = false := by
  unfold C.wake; split
  · exact fun h => by cases h
  · rename_i h
    intro e
    refine ⟨e, ?_⟩
    cases b with
    | false => rfl
    | true => exact absurd ⟨rfl, e⟩ h

theorem inv_step (n max : Nat) (s s' : St) (h : Inv n max s) (st : Step s s') : Inv n max s' := by
  cases st with
  | start hc hl =>
    have hm := h.few
    refine ⟨fun i => ?_, ?_, fun e => ?_, fun e => ?_, fun e => ?_, h.nogone, hm.1, ?_⟩
    · have := h.parts i
      simpa [St.held, W.item, List.filterMap_cons] using this
    · have := h.refs
      have e : (List.filter W.on (s.ths ++ [W.idle])).length = (List.filter W.on s.ths).length + 1 := by
        rw [List.filter_append, List.length_append]; rfl
      simp only [hc, C.past, C.left, St.live, e, List.length_append, List.length_singleton, Bool.false_eq_true, if_false] at this ⊢
      omega
    · rw [hc] at e; cases e
    · rw [hc] at e; cases e
    · refine h.empty ?_
      simpa using e
    · show (s.ths ++ [W.idle]).length ≤ max
      rw [List.length_append]
      have := hm.1
      show s.ths.length + 1 ≤ max
      omega
  | started hc =>
    refine ⟨fun i => ?_, ?_, fun e => (by cases e), fun e => (by cases e), fun e => ?_, fun e => (by cases e), h.few⟩
    · have := h.parts i
      simpa [St.held, hc, C.item] using this
    · have := h.refs
      simpa [hc, C.past, C.left, St.live] using this
    · refine h.empty ?_
      rcases e with e | e | e | e
      · exact .inl e
      · exact .inr (.inl e)
      · cases e
      · cases e
  | add hc =>
    refine ⟨fun i => ?_, ?_, fun e => (by cases e), fun e => (by cases e), fun e => ?_, fun e => (by cases e), h.few⟩
    · have := h.parts i
      simpa [St.held, hc, C.item, W.item] using this
    · have := h.refs
      simp [hc, C.past, C.left, St.live] at this ⊢
      omega
    · refine h.empty ?_
      rcases e with e | e | e | e
      · exact .inl e
      · exact .inr (.inl e)
      · cases e
      · cases e
  | thread a b w w' todo' refs' done' woken ht hw =>
    have hp := h.parts
    have hr := h.refs
    have he := h.empty
    have hs := h.sleep
    have hf := h.fin
    have hm := h.few
    simp only [St.held, ht, List.filterMap_append, List.filterMap_cons, St.live, List.filter_append, List.filter_cons, List.length_append,
      List.length_cons] at hp hr hs hf hm
    cases w with
    | gone => cases hw
    | idle =>
      cases hd : s.todo with
      | nil =>
        simp only [work, get, hd, Option.some.injEq, Prod.mk.injEq] at hw
        obtain ⟨rfl, rfl, rfl, rfl, rfl⟩ := hw
        refine ⟨fun i => ?_, ?_, fun e => ?_, fun e => ?_, fun _ => rfl, fun e => h.nogone (wake_work s.caller false _ e), hm.1, ?_⟩
        · have := hp i
          simpa [St.held, wake_item, hd, W.item, List.filterMap_append, List.filterMap_cons] using this
        · simpa [wake_past, wake_left, St.live, W.on] using hr
        · have := hs (wake_wait s.caller false e).1
          simpa [St.live, W.on] using this
        · have := hf (wake_ret s.caller false e)
          simp [W.on] at this
        · simpa using hm.2
      | cons j rest =>
        simp only [work, get, hd, Option.some.injEq, Prod.mk.injEq] at hw
        obtain ⟨rfl, rfl, rfl, rfl, rfl⟩ := hw
        refine ⟨fun i => ?_, ?_, fun e => ?_, fun e => ?_, fun e => ?_, fun e => h.nogone (wake_work s.caller false _ e), hm.1, ?_⟩
        · have := hp i
          simp [St.held, wake_item, hd, W.item, List.filterMap_append, List.filterMap_cons, List.count_cons] at this ⊢
          omega
        · simpa [wake_past, wake_left, St.live, W.on] using hr
        · have := hs (wake_wait s.caller false e).1
          simpa [St.live, W.on] using this
        · have := hf (wake_ret s.caller false e)
          simp [W.on] at this
        · exfalso
          have : s.todo = [] := by
            refine he ?_
            rw [ht]
            rcases e with e | e | e | e
            · simp at e; simp [e]
            · simp at e; simp [e]
            · exact .inr (.inr (.inl (wake_work s.caller false _ e)))
            · rw [show _ = _ from wake_left s.caller false] at e
              exact .inr (.inr (.inr e))
          rw [hd] at this; cases this
        · simpa using hm.2
    | has j =>
      simp only [work, Option.some.injEq, Prod.mk.injEq] at hw
      obtain ⟨rfl, rfl, rfl, rfl, rfl⟩ := hw
      refine ⟨fun i => ?_, ?_, fun e => ?_, fun e => ?_, fun e => ?_, fun e => h.nogone (wake_work s.caller false _ e), hm.1, ?_⟩
      · have := hp i
        simp [St.held, wake_item, W.item, List.filterMap_append, List.filterMap_cons, List.count_cons] at this ⊢
        omega
      · simpa [wake_past, wake_left, St.live, W.on] using hr
      · have := hs (wake_wait s.caller false e).1
        simpa [St.live, W.on] using this
      · have := hf (wake_ret s.caller false e)
        simp [W.on] at this
      · refine he ?_
        rw [ht]
        rcases e with e | e | e | e
        · simp at e; simp [e]
        · simp at e; simp [e]
        · exact .inr (.inr (.inl (wake_work s.caller false _ e)))
        · rw [show _ = _ from wake_left s.caller false] at e
          exact .inr (.inr (.inr e))
      · simpa using hm.2
    | out =>
      simp only [work, release, Option.some.injEq, Prod.mk.injEq] at hw
      obtain ⟨rfl, rfl, rfl, rfl, hwk⟩ := hw
      refine ⟨fun i => ?_, ?_, fun e => ?_, fun e => ?_, fun _ => ?_, fun e => h.nogone (wake_work s.caller woken _ e), hm.1, ?_⟩
      · have := hp i
        simpa [St.held, wake_item, W.item, List.filterMap_append, List.filterMap_cons] using this
      · simp [wake_past, wake_left, St.live, W.on] at hr ⊢
        omega
      · obtain ⟨e1, e2⟩ := wake_wait s.caller woken e
        rw [e1] at hr
        simp [C.past, C.left, W.on] at hr
        rw [e2] at hwk
        have hwk' : s.refs - 1 ≠ 0 := by simpa using hwk
        have e3 : (List.filter W.on (a ++ W.gone :: b)).length = (List.filter W.on a).length + (List.filter W.on b).length := by
          rw [List.filter_append, List.length_append]; rfl
        show (List.filter W.on (a ++ W.gone :: b)).length ≠ 0
        omega
      · have := hf (wake_ret s.caller woken e)
        simp [W.on] at this
      · exact he (.inl (by rw [ht]; simp))
      · simpa using hm.2
  | caller w w' todo' refs' done' woken hc hw =>
    have hp := h.parts
    have hr := h.refs
    have he := h.empty
    simp only [St.held, hc, C.item, C.past, C.left] at hp hr
    cases w with
    | gone => cases hw
    | idle =>
      cases hd : s.todo with
      | nil =>
        simp only [work, get, hd, Option.some.injEq, Prod.mk.injEq] at hw
        obtain ⟨rfl, rfl, rfl, rfl, rfl⟩ := hw
        refine ⟨fun i => ?_, ?_, fun e => (by cases e), fun e => (by cases e), fun _ => rfl, fun e => (by cases e), h.few⟩
        · have := hp i
          simpa [St.held, C.item, hd, W.item] using this
        · simpa [C.past, C.left, St.live] using hr
      | cons j rest =>
        simp only [work, get, hd, Option.some.injEq, Prod.mk.injEq] at hw
        obtain ⟨rfl, rfl, rfl, rfl, rfl⟩ := hw
        refine ⟨fun i => ?_, ?_, fun e => (by cases e), fun e => (by cases e), fun e => ?_, fun e => (by cases e), h.few⟩
        · have := hp i
          simp [St.held, C.item, hd, W.item, List.count_cons] at this ⊢
          omega
        · simpa [C.past, C.left, St.live] using hr
        · exfalso
          have : s.todo = [] := by
            refine he ?_
            rcases e with e | e | e | e
            · exact .inl e
            · exact .inr (.inl e)
            · cases e
            · cases e
          rw [hd] at this; cases this
    | has j =>
      simp only [work, Option.some.injEq, Prod.mk.injEq] at hw
      obtain ⟨rfl, rfl, rfl, rfl, rfl⟩ := hw
      refine ⟨fun i => ?_, ?_, fun e => (by cases e), fun e => (by cases e), fun e => ?_, fun e => (by cases e), h.few⟩
      · have := hp i
        simp [St.held, C.item, W.item, List.count_cons] at this ⊢
        omega
      · simpa [C.past, C.left, St.live] using hr
      · refine he ?_
        rcases e with e | e | e | e
        · exact .inl e
        · exact .inr (.inl e)
        · cases e
        · cases e
    | out =>
      simp only [work, release, Option.some.injEq, Prod.mk.injEq] at hw
      obtain ⟨rfl, rfl, rfl, rfl, hwk⟩ := hw
      refine ⟨fun i => ?_, ?_, fun e => (by cases e), fun e => (by cases e), fun e => ?_, fun e => (by cases e), h.few⟩
      · have := hp i
        simpa [St.held, C.item, W.item] using this
      · simp [C.past, C.left, St.live] at hr ⊢
        omega
      · exact he (.inr (.inr (.inl hc)))
  | wait hc hn =>
    refine ⟨fun i => ?_, ?_, fun _ => ?_, fun e => (by cases e), fun e => ?_, fun e => (by cases e), h.few⟩
    · have := h.parts i
      simpa [St.held, hc, C.item] using this
    · have := h.refs
      simpa [hc, C.past, C.left, St.live] using this
    · have := h.refs
      simp only [hc, C.past, C.left, if_true] at this
      show s.live ≠ 0
      omega
    · exact h.empty (.inr (.inr (.inr (by rw [hc]; rfl))))
  | ret hc hn =>
    refine ⟨fun i => ?_, ?_, fun e => (by cases e), fun _ => ?_, fun e => ?_, fun e => (by cases e), h.few⟩
    · have := h.parts i
      simpa [St.held, hc, C.item] using this
    · have := h.refs
      simpa [hc, C.past, C.left, St.live] using this
    · have := h.refs
      simp only [hc, C.past, C.left, if_true] at this
      show s.live = 0
      omega
    · exact h.empty (.inr (.inr (.inr (by rw [hc]; rfl))))

theorem inv_spurious (n max : Nat) (s s' : St) (h : Inv n max s) (st : Spurious s s') : Inv n max s' := by
  cases st with
  | mk hc =>
    refine ⟨fun i => ?_, ?_, fun e => (by cases e), fun e => (by cases e), fun _ => ?_, fun e => (by cases e), h.few⟩
    · have := h.parts i
      simpa [St.held, hc, C.item] using this
    · have := h.refs
      simpa [hc, C.past, C.left, St.live] using this
    · exact h.empty (.inr (.inr (.inr (by rw [hc]; rfl))))

theorem inv_reach {n max : Nat} {s : St} (h : Reach n max s) : Inv n max s := by
  induction h with
  | init => exact inv_init n max
  | step _ st ih => exact inv_step n max _ _ ih st
  | spurious _ st ih => exact inv_spurious n max _ _ ih st

theorem held_gone (l : List W) (h : ∀ w ∈ l, w = .gone) : l.filterMap W.item = [] := by
  induction l with
  | nil => rfl
  | cons a l ih =>
    rw [List.filterMap_cons, h a (by simp)]
    exact ih fun w hw => h w (by simp [hw])

/-- C98: when the call returns, every part was worked on exactly once, and no other; and every thread that was started has given its reference
back, so that none of them uses the set of parts, which is on the caller's stack, afterwards.  For every number of parts and threads, every order
of steps, threads that start late or not at all, and sleeps that end for no reason. -/
theorem C98_complete (n max : Nat) (s : St) (h : Reach n max s) (hr : s.caller = .ret) :
    s.done.Perm (List.range n) ∧ s.todo = [] ∧ (∀ w ∈ s.ths, w = .gone) ∧ s.refs = 0 := by
  have hi := inv_reach h
  have hl := hi.fin hr
  have hg : ∀ w ∈ s.ths, w = .gone := by
    intro w hw
    unfold St.live at hl
    have hl := List.eq_nil_of_length_eq_zero hl
    rw [List.filter_eq_nil_iff] at hl
    have := hl w hw
    unfold W.on at this
    simpa using this
  have ht := hi.empty (.inr (.inr (.inr (by rw [hr]; rfl))))
  refine ⟨List.perm_iff_count.2 fun i => ?_, ht, hg, ?_⟩
  · have := hi.parts i
    rw [ht] at this
    unfold St.held at this
    rw [held_gone _ hg, hr] at this
    simpa [C.item] using this
  · have := hi.refs
    rw [hr, hl] at this
    simp [C.past, C.left] at this
    omega

/-- C98: at no time is a part worked on by two, or again after it was done. -/
theorem C98_once (n max : Nat) (s : St) (h : Reach n max s) : (s.held ++ s.done).Nodup ∧ ∀ i ∈ s.held ++ s.done, i < n := by
  have hi := inv_reach h
  have hle : ∀ i, (s.held ++ s.done).count i ≤ (List.range n).count i := by
    intro i
    have := hi.parts i
    rw [List.count_append]
    omega
  constructor
  · rw [List.nodup_iff_count]
    intro i
    have h1 := hle i
    have h2 := List.nodup_iff_count.1 (List.nodup_range (n := n)) i
    omega
  · intro i hm
    have h1 := hle i
    have h2 := List.count_pos_iff.2 hm
    exact List.mem_range.1 (List.count_pos_iff.1 (by omega : 0 < (List.range n).count i))

/-- C98: no more threads are started than were asked for. -/
theorem C98_threads (n max : Nat) (s : St) (h : Reach n max s) : s.ths.length ≤ max := (inv_reach h).few.2

theorem work_some (w : W) (h : w ≠ .gone) (todo : List Nat) (refs : Int) (done : List Nat) : ∃ r, work w todo refs done = some r := by
  cases w with
  | gone => exact absurd rfl h
  | _ => exact ⟨_, rfl⟩

/-- C98: the call is never stuck: until it has returned somebody can go on, without being woken for no reason. -/
theorem C98_goes_on (n max : Nat) (s : St) (h : Reach n max s) (hr : s.caller ≠ .ret) : ∃ s', Step s s' := by
  have hi := inv_reach h
  cases hc : s.caller with
  | run => exact ⟨_, .started s hc⟩
  | add => exact ⟨_, .add s hc⟩
  | work w =>
    obtain ⟨⟨w', t, r, d, b⟩, e⟩ := work_some w (fun e => hi.nogone (by rw [hc, e])) s.todo s.refs s.done
    exact ⟨_, .caller s w w' t r d b hc e⟩
  | join =>
    by_cases h0 : s.refs = 0
    · exact ⟨_, .ret s hc h0⟩
    · exact ⟨_, .wait s hc h0⟩
  | wait =>
    have hl := hi.sleep hc
    have : ∃ w ∈ s.ths, w ≠ .gone := by
      unfold St.live at hl
      obtain ⟨w, hw⟩ := List.exists_mem_of_length_pos (Nat.pos_of_ne_zero hl)
      rw [List.mem_filter] at hw
      exact ⟨w, hw.1, by simpa [W.on] using hw.2⟩
    obtain ⟨w, hw, hg⟩ := this
    obtain ⟨a, b, e⟩ := List.append_of_mem hw
    obtain ⟨⟨w', t, r, d, k⟩, e'⟩ := work_some w hg s.todo s.refs s.done
    exact ⟨_, .thread s a b w w' t r d k e e'⟩
  | ret => exact absurd hc hr

/-! ## Number of steps -/

def W.weight : W → Nat
  | .idle => 6
  | .has _ => 7
  | .out => 5
  | .gone => 1

def C.weight : C → Nat
  | .run => 20
  | .add => 15
  | .work .idle => 9
  | .work (.has _) => 10
  | .work .out => 8
  | .work .gone => 7
  | .join => 5
  | .wait => 4
  | .ret => 0

def St.weight (s : St) : Nat :=
  3 * s.todo.length + (s.ths.map W.weight).sum + s.caller.weight + (if s.caller = .run then 10 * (s.max - s.ths.length) else 0)

theorem wake_weight (c : C) (b : Bool) : (c.wake b).weight ≤ c.weight + 1 := by
  unfold C.wake; split
  · rename_i h; rw [h.2]; decide
  · omega

theorem wake_run (c : C) (b : Bool) : c.wake b = .run ↔ c = .run := by
  unfold C.wake; split
  · rename_i h; rw [h.2]; simp
  · rfl

theorem wake_false (c : C) : c.wake false = c := by
  unfold C.wake; simp

theorem weight_step (s s' : St) (st : Step s s') : s'.weight < s.weight := by
  cases st with
  | start hc hl =>
    simp only [St.weight, hc, if_true, List.map_append, List.sum_append, List.length_append, List.map_cons, List.map_nil, List.sum_cons,
      List.sum_nil, List.length_singleton, W.weight]
    omega
  | started hc => simp only [St.weight, hc, if_true, C.weight, reduceCtorEq, if_false]; omega
  | add hc => simp only [St.weight, hc, C.weight, reduceCtorEq, if_false]; omega
  | thread a b w w' todo' refs' done' woken ht hw =>
    have hk := wake_weight s.caller woken
    have hk' : (if s.caller.wake woken = .run then 10 * (s.max - (a ++ w' :: b).length) else 0) =
        if s.caller = .run then 10 * (s.max - (a ++ w :: b).length) else 0 := by
      simp only [wake_run, List.length_append, List.length_cons]
    simp only [St.weight, ht, hk']
    simp only [List.map_append, List.map_cons, List.sum_append, List.sum_cons]
    cases w with
    | gone => cases hw
    | idle =>
      cases hd : s.todo with
      | nil =>
        simp only [work, get, hd, Option.some.injEq, Prod.mk.injEq] at hw
        obtain ⟨rfl, rfl, rfl, rfl, rfl⟩ := hw
        rw [wake_false]
        simp only [W.weight, List.length_nil]; omega
      | cons j rest =>
        simp only [work, get, hd, Option.some.injEq, Prod.mk.injEq] at hw
        obtain ⟨rfl, rfl, rfl, rfl, rfl⟩ := hw
        rw [wake_false]
        simp only [W.weight, List.length_cons]; omega
    | has j =>
      simp only [work, Option.some.injEq, Prod.mk.injEq] at hw
      obtain ⟨rfl, rfl, rfl, rfl, rfl⟩ := hw
      rw [wake_false]
      simp only [W.weight]; omega
    | out =>
      simp only [work, Option.some.injEq, Prod.mk.injEq] at hw
      obtain ⟨rfl, rfl, rfl, rfl, _⟩ := hw
      simp only [W.weight]; omega
  | caller w w' todo' refs' done' woken hc hw =>
    simp only [St.weight, hc, reduceCtorEq, if_false]
    cases w with
    | gone => cases hw
    | idle =>
      cases hd : s.todo with
      | nil =>
        simp only [work, get, hd, Option.some.injEq, Prod.mk.injEq] at hw
        obtain ⟨rfl, rfl, rfl, rfl, rfl⟩ := hw
        simp only [reduceCtorEq, if_false, C.weight, List.length_nil]; omega
      | cons j rest =>
        simp only [work, get, hd, Option.some.injEq, Prod.mk.injEq] at hw
        obtain ⟨rfl, rfl, rfl, rfl, rfl⟩ := hw
        simp only [reduceCtorEq, if_false, C.weight, List.length_cons]; omega
    | has j =>
      simp only [work, Option.some.injEq, Prod.mk.injEq] at hw
      obtain ⟨rfl, rfl, rfl, rfl, rfl⟩ := hw
      simp only [reduceCtorEq, if_false, C.weight]; omega
    | out =>
      simp only [work, Option.some.injEq, Prod.mk.injEq] at hw
      obtain ⟨rfl, rfl, rfl, rfl, _⟩ := hw
      simp only [if_true, reduceCtorEq, if_false, C.weight]; omega
  | wait hc hn => simp only [St.weight, hc, C.weight, reduceCtorEq, if_false]; omega
  | ret hc hn => simp only [St.weight, hc, C.weight, reduceCtorEq, if_false]; omega

/-- A run of `k` steps. -/
inductive Steps : Nat → St → St → Prop
  | zero (s : St) : Steps 0 s s
  | more {k : Nat} {s t u : St} : Steps k s t → Step t u → Steps (k + 1) s u

/-- C98: the call ends: whatever the order, there are at most `3 n + 10 max + 20` steps (and, by `C98_goes_on`, it is not over before the call has
returned). -/
theorem C98_ends (n max k : Nat) (s : St) (h : Steps k (.init n max) s) : k ≤ 3 * n + 10 * max + 20 := by
  have : ∀ k s t, Steps k s t → k + t.weight ≤ s.weight := by
    intro k s t h
    induction h with
    | zero s => omega
    | more _ st ih => have := weight_step _ _ st; omega
  have := this k _ _ h
  have e : (St.init n max).weight = 3 * n + 10 * max + 20 := by
    simp only [St.weight, St.init, List.length_range, List.map_nil, List.sum_nil, C.weight, if_true, List.length_nil]
    omega
  omega

/-! ## The result -/

theorem code_all (f : Nat → Int) (done : List Nat) (l : List Nat) (h : ∀ i ∈ l, i ∈ done) :
    code f done l = ((l.map f).find? (fun e => decide (e ≠ 0))).getD 0 := by
  induction l with
  | nil => rfl
  | cons i l ih =>
    unfold code
    rw [if_pos (h i (by simp)), List.map_cons, List.find?_cons]
    by_cases e : f i = 0
    · rw [if_neg (by simp [e]), ih fun j hj => h j (by simp [hj])]
      simp [e]
    · rw [if_pos e]
      simp [e]

/-- C98: the error returned is that of the first part, in their order in the node, that has one, as if one thread had worked on them one after
the other; 0 if none has one. -/
theorem C98_error (n max : Nat) (s : St) (h : Reach n max s) (hr : s.caller = .ret) (f : Nat → Int) :
    code f s.done (List.range n) = (((List.range n).map f).find? (fun e => decide (e ≠ 0))).getD 0 ∧
    (code f s.done (List.range n) = 0 ↔ ∀ i < n, f i = 0) := by
  have hp := (C98_complete n max s h hr).1
  have e := code_all f s.done (List.range n) fun i hi => hp.mem_iff.2 hi
  refine ⟨e, ?_⟩
  rw [e]
  constructor
  · intro h0 i hi
    cases hf : ((List.range n).map f).find? (fun e => decide (e ≠ 0)) with
    | none =>
      rw [List.find?_eq_none] at hf
      have := hf (f i) (List.mem_map.2 ⟨i, List.mem_range.2 hi, rfl⟩)
      simpa using this
    | some v =>
      rw [hf] at h0
      have := List.find?_some hf
      simp only [Option.getD_some] at h0
      simp [h0] at this
  · intro ha
    cases hf : ((List.range n).map f).find? (fun e => decide (e ≠ 0)) with
    | none => rfl
    | some v =>
      obtain ⟨i, hi, hv⟩ := List.mem_map.1 (List.mem_of_find?_eq_some hf)
      rw [← hv, ha i (List.mem_range.1 hi)]
      rfl

/-- C98: fewer threads are asked for than there are cores and parts, but for none at all. -/
theorem C98_asked (cores parts : Nat) : threadsFor cores parts ≤ parts - 1 ∧ threadsFor cores parts ≤ cores - 1 := by
  unfold threadsFor
  split <;> omega

/-- The hypotheses are met: two parts, one thread, which takes both and is done before it is counted (the number of references is 0 and
then 1), and ends before the caller looks. -/
example : ∃ s, Reach 2 1 s ∧ s.caller = .ret ∧ s.done = [0, 1] ∧ s.ths = [.gone] := by
  have h0 := Reach.init (n := 2) (max := 1)
  have h1 := h0.step (.start _ rfl (by decide))
  have h2 := h1.step (.started _ rfl)
  have h3 := h2.step (.thread _ [] [] .idle _ _ _ _ _ rfl rfl)
  have h4 := h3.step (.thread _ [] [] (.has 0) _ _ _ _ _ rfl rfl)
  have h5 := h4.step (.thread _ [] [] .idle _ _ _ _ _ rfl rfl)
  have h6 := h5.step (.thread _ [] [] (.has 1) _ _ _ _ _ rfl rfl)
  have h7 := h6.step (.thread _ [] [] .idle _ _ _ _ _ rfl rfl)
  have h8 := h7.step (.thread _ [] [] .out _ _ _ _ _ rfl rfl)
  have h9 := h8.step (.add _ rfl)
  have h10 := h9.step (.caller _ .idle _ _ _ _ _ rfl rfl)
  have h11 := h10.step (.caller _ .out _ _ _ _ _ rfl rfl)
  have h12 := h11.step (.ret _ rfl (by decide))
  exact ⟨_, h12, rfl, rfl, rfl⟩

/-- And: the caller is done first, sleeps, and is woken by the thread. -/
example : ∃ s, Reach 2 1 s ∧ s.caller = .ret ∧ s.done = [0, 1] := by
  have h0 := Reach.init (n := 2) (max := 1)
  have h1 := h0.step (.start _ rfl (by decide))
  have h2 := h1.step (.started _ rfl)
  have h3 := h2.step (.add _ rfl)
  have h4 := h3.step (.caller _ .idle _ _ _ _ _ rfl rfl)
  have h5 := h4.step (.thread _ [] [] .idle _ _ _ _ _ rfl rfl)
  have h6 := h5.step (.caller _ (.has 0) _ _ _ _ _ rfl rfl)
  have h7 := h6.step (.caller _ .idle _ _ _ _ _ rfl rfl)
  have h8 := h7.step (.caller _ .out _ _ _ _ _ rfl rfl)
  have h9 := h8.step (.wait _ rfl (by decide))
  have h10 := h9.step (.thread _ [] [] (.has 1) _ _ _ _ _ rfl rfl)
  have h11 := h10.step (.thread _ [] [] .idle _ _ _ _ _ rfl rfl)
  have h12 := h11.step (.thread _ [] [] .out _ _ _ _ _ rfl rfl)
  have h13 := h12.step (.ret _ rfl (by decide))
  exact ⟨_, h13, rfl, rfl⟩

end Verif.Par
