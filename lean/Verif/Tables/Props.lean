import Verif.Tables.Lemmas

/-!
# C93: lock tables live as long as they are used, and no longer; escalation and its waiters
-/

namespace Verif.Tables

/-- Whatever threads open and close dictionaries, begin and end to hold locks, and escalate, in any order: no table is used after it
was freed, freed twice, or freed while it is in use. -/
theorem C93_safe {h s} (e : run St.init h = some s) : s.bad = false ∧ ∀ o ∈ s.held, s.freed o = false :=
  have i := inv_run inv_init e
  ⟨i.ok, fun o ho => i.alive o (i.heldMap o ho)⟩

/-- At every moment all users of one dictionary, handles and transactions, use the same table, so that their locks are seen by each
other. -/
theorem C93_shared {h s} (e : run St.init h = some s) : Shared s :=
  have i := inv_run inv_init e
  fun o ho o' ho' hd => i.uniq o (i.heldMap o ho) o' (i.heldMap o' ho') hd

/-- While anybody uses the table of a dictionary, also if its last handle is closed and only a transaction with locks is left, an
open of the dictionary is given that table, whether or not a new one could be made. -/
theorem C93_found {h s o ok} (e : run St.init h = some s) (ho : o ∈ s.held) :
    ∃ t, run St.init (h ++ [.get (s.dict o) ok]) = some t ∧ t.held = o :: s.held := by
  have i := inv_run inv_init e
  refine ⟨reference s o, ?_, rfl⟩
  rw [run_append e]
  simp only [run, step, get, find_mem i.uniq (i.heldMap o ho)]

/-- The count of users that the table keeps is right at every moment. -/
theorem C93_refs {h s} (e : run St.init h = some s) : ∀ o, s.refs o = s.held.count o := (inv_run inv_init e).cnt

/-- When no release is under way, a table that was ever made is freed if and only if nobody uses it; if nobody uses any, the
manager's list is empty, as closing the environment demands. -/
theorem C93_freed {h s} (e : run St.init h = some s) (r : Rest s) :
    (∀ o, o < s.next → (s.freed o = true ↔ o ∉ s.held)) ∧ (s.held = [] → s.map = []) := by
  have i := inv_run inv_init e
  have mh : ∀ o ∈ s.map, o ∈ s.held := by
    intro o ho
    by_cases hh : o ∈ s.held
    · exact hh
    · have hz : s.refs o = 0 := (i.cnt o).trans (List.count_eq_zero_of_not_mem hh)
      have := i.zero o ho hz
      rw [r.1] at this; cases this
  refine ⟨?_, ?_⟩
  · intro o hlt
    refine ⟨fun hf hh => ?_, fun hh => ?_⟩
    · have := i.alive o (i.heldMap o hh)
      rw [hf] at this; cases this
    · rcases i.cover o hlt with c | c | c
      · exact absurd (mh o c) hh
      · rw [r.2] at c; cases c
      · exact c
  · intro hh
    cases hm : s.map with
    | nil => rfl
    | cons o l =>
      have := mh o (by rw [hm]; exact List.mem_cons_self)
      rw [hh] at this; cases this

/-- Releases that are under way can always be ended, without anybody else doing anything, and what others hold is not touched. -/
theorem C93_ends {h s} (e : run St.init h = some s) :
    ∃ k t, run s k = some t ∧ (∀ a ∈ k, Ending a) ∧ Rest t ∧ t.held = s.held ∧
      (∀ o, o < t.next → (t.freed o = true ↔ o ∉ s.held)) := by
  obtain ⟨k, t, ek, he, hr, hh⟩ := ends_pend _ s rfl
  refine ⟨k, t, ek, he, hr, hh, ?_⟩
  rw [← hh]
  exact (C93_freed ((run_append e).trans ek) hr).1

/-- The number of waits reported is never less than the number that happened, also after tables were freed. -/
theorem C93_reported {h s} (e : run St.init h = some s) : s.total ≤ reported s := (inv_run inv_init e).total

/-- Partial: the number of waits reported is right if no table is taken again between the moment its count falls to 0 and the
moment the releasing thread has the mutex.  Missing: in general it is not, see `C93_reported_refuted`. -/
theorem C93_reported_partial {h s} (e : run St.init h = some s) (q : Quiet St.init h) : reported s = s.total :=
  (exact_run inv_init q rfl e).symm

/-- Dictionary 7: opened, one wait, closed; before the closing thread has the mutex it is opened again.  The one wait is reported
as two. -/
theorem C93_reported_refuted :
    (run St.init [.get 7 true, .wait 0, .rel 0, .get 7 true, .fin 0]).map (fun s => (s.total, reported s, s.held)) =
      some (1, 2, [0]) := by decide +kernel

/-- Non-vacuity: two handles and a transaction on dictionary 7, one handle on dictionary 8, an escalation in between, everything
closed at the end; the first table is made again after it was freed. -/
example : (run St.init [.get 7 true, .get 7 true, .ref 0, .get 8 true, .wait 0, .collect, .rel 0, .rel 0, .rel 0, .rel 0, .fin 0,
    .kill 0, .get 7 true, .rel 1, .rel 1, .fin 1, .kill 1]).map
      (fun s => (s.held, s.map, s.freed 0, s.freed 1, s.freed 2, s.total, reported s)) =
      some ([2], [2], true, true, false, 1, 1) := by rfl

/-- Non-vacuity of `Quiet`, and of two releases that both see 0 of the same table: only one frees it. -/
example : Quiet St.init [.get 7 true, .wait 0, .rel 0, .fin 0, .kill 0, .get 7 true, .wait 1] := by
  simp [Quiet, step, get, find, create, release, finish, destroy, wait, St.init, upd]

example : (run St.init [.get 7 true, .rel 0, .get 7 true, .rel 0, .fin 0, .fin 0, .kill 0]).map
    (fun s => (s.bad, s.freed 0, s.map, s.pend, s.dying)) = some (false, true, [], [], []) := by decide +kernel

/-! ## Escalation -/

/-- In no history does a thread wait for the end of an escalation when none is under way. -/
theorem C93_waiting {m h s} (e : erun (Esc.init m) h = some s) (w : s.waiting ≠ []) : s.running ≠ none :=
  fun r => w ((einv_run einv_init e).wait r)

/-- The escalation that is waited for can always go on to its end, and then every waiting thread is let go. -/
theorem C93_woken {m h s} (e : erun (Esc.init m) h = some s) (w : s.waiting ≠ []) :
    ∃ n t, erun s (List.replicate n .one ++ [.done]) = some t ∧ t.waiting = [] ∧
      ∀ x ∈ s.waiting, (x.1, false, x.2) ∈ t.woken := by
  cases hr : s.running with
  | none => exact absurd hr (C93_waiting e w)
  | some x =>
    obtain ⟨th, b, rest⟩ := x
    obtain ⟨t, et, h1, h2, -⟩ := ones rest s hr
    refine ⟨rest.length, done t th b, ?_, rfl, ?_⟩
    · rw [erun_append et]
      simp only [erun, estep, h1]
    · intro x hx
      show (x.1, false, x.2) ∈ (th, true, b) :: t.waiting.map (fun w => (w.1, false, w.2)) ++ t.woken
      rw [h2]
      simp only [List.cons_append, List.mem_cons, List.mem_append, List.mem_map]
      exact Or.inr (Or.inl ⟨x, hx, rfl⟩)

/-- Partial: a request that ran the escalation itself is refused only after every table that was open when it asked has been
escalated.  Missing: requests that waited for the escalation of another thread, see `C93_refused_refuted`. -/
theorem C93_refused_partial {m h s} (e : erun (Esc.init m) h = some s) :
    ∀ x ∈ s.refused, x.ran = true → ∀ t ∈ x.snap, t ∈ x.since := (einv_run einv_init e).ref

/-- A request alone: it is refused if and only if the memory left after escalating every table is not below the limit. -/
theorem C93_alone {s : Esc} {th big} (r : s.running = none) (hw : s.waiting = []) (hk : s.woken = [])
    (ho : limitOf s.max big ≤ (s.tables.map s.size).sum) :
    ∃ t, erun s (.ask th big :: List.replicate s.tables.length .one ++ [.done, .again th true big]) = some t ∧
      (t.refused ≠ s.refused ↔ limitOf s.max big ≤ afterEscalation s) ∧
      (t.tables.map t.size).sum = afterEscalation s := by
  have hb : busy s th = false := by unfold busy; simp [r, hw, hk]
  have hov : ∀ u : Esc, over u big = true ↔ limitOf u.max big ≤ memory u := by
    intro u; unfold over limitOf; cases big <;> simp
  have ho' : over s big = true := (hov s).2 ho
  let u : Esc := ask s th big
  have hu : u = { s with snap := upd s.snap th s.tables, since := upd s.since th [], running := some (th, big, s.tables) } := by
    show ask s th big = _
    unfold ask
    rw [if_pos ho']; simp only [r]
  obtain ⟨t, et, h1, h2, h3, h4, h5, h6, h7, h8, -⟩ := ones (th := th) (b := big) s.tables u (by rw [hu])
  rw [hu] at h2 h3 h4 h5 h6 h7 h8
  have hmem : (t.tables.map t.size).sum = afterEscalation s := by
    rw [h4]
    show _ = (s.tables.map s.least).sum
    apply sum_ext
    intro d hd
    rw [h8, if_pos hd]
  have e1 : erun s (.ask th big :: List.replicate s.tables.length .one ++ [.done, .again th true big] : List EOp) =
      some (again (done t th big) th true big) := by
    show (match estep s (.ask th big) with
      | some t => erun t (List.replicate s.tables.length EOp.one ++ [EOp.done, EOp.again th true big])
      | none => none) = _
    simp only [estep, hb, Bool.false_eq_true, if_false]
    show erun u _ = _
    rw [erun_append et]
    have : (th, true, big) ∈ (done t th big).woken := List.mem_cons_self
    simp only [erun, estep, h1, if_pos this]
  have hm2 : t.max = s.max := h6
  refine ⟨_, e1, ?_, ?_⟩
  · have ho2 : over { done t th big with woken := (done t th big).woken.erase (th, true, big) } big = true ↔
        limitOf s.max big ≤ afterEscalation s := by
      rw [hov, ← hmem, ← hm2]; exact Iff.rfl
    unfold again
    simp only
    by_cases hc : over { done t th big with woken := (done t th big).woken.erase (th, true, big) } big = true
    · rw [if_pos hc]
      refine ⟨fun _ => ho2.1 hc, fun _ hh => ?_⟩
      have hh : (⟨th, true, t.snap th, t.since th⟩ : Refusal) :: t.refused = s.refused := hh
      rw [h7] at hh
      have := congrArg List.length hh
      simp at this
    · rw [if_neg hc]
      exact ⟨fun hh => absurd h7 hh, fun hh => absurd (ho2.2 hh) hc⟩
  · rw [← hmem]
    unfold again
    simp only
    split <;> rfl

/-- With a limit of 10, thread 1 escalates tables 1 and 2.  After table 1 is done its dictionary gets 8 new locks that could be
merged to 1; thread 2 asks, waits for the end and is refused, though its table was not escalated since, and escalating would leave
3, far below the limit. -/
theorem C93_refused_refuted :
    (erun (Esc.init 10) [.open 2, .open 1, .lock 1 6 1, .lock 2 4 1, .ask 1 false, .one, .lock 1 8 1, .ask 2 false, .one, .done,
      .again 2 false false]).map (fun s => (s.refused, afterEscalation s, s.running)) =
      some ([⟨2, false, [1, 2], [2]⟩], 3, none) := by rfl

/-- Waking up without a broadcast, which the system allows, is taken for the end of the escalation: thread 2 is refused while thread 1
is still at work and before anything was escalated. -/
theorem C93_spurious_refuted :
    (erun (Esc.init 10) [.open 1, .lock 1 12 1, .ask 1 false, .ask 2 false, .spurious 2 false, .again 2 false false]).map
      (fun s => (s.refused, afterEscalation s, s.running)) =
      some ([⟨2, false, [1], []⟩], 1, some (1, false, [1])) := by rfl

/-- Non-vacuity: an escalation with a waiting thread; both are let go, nobody is refused.  A big transaction asked in between that
is over half of the limit. -/
example : (erun (Esc.init 10) [.open 1, .lock 1 12 3, .ask 1 false, .ask 2 true, .one, .done, .again 1 true false,
    .again 2 false true]).map (fun s => (s.refused, memory s, s.running, s.waiting)) = some ([], 3, none, []) := by rfl

/-- Non-vacuity of `C93_refused_partial`: a request that ran the escalation and is refused. -/
example : (erun (Esc.init 10) [.open 1, .lock 1 12 11, .ask 1 false, .one, .done, .again 1 true false]).map (·.refused) =
    some [⟨1, true, [1], [1]⟩] := by rfl

end Verif.Tables
