import Verif.Redirect.Lemmas

/-!
# The invariant of one dictionary with at most one open loader
-/

namespace Verif.Redirect

/-- Some file named in the entry. -/
def Names (f : Nat) : Entry → Prop
  | .put g _ => g = f
  | .redirect o n => o = f ∨ n = f
  | .load o n => o = f ∨ n = f

theorem names_of_uses {f e} (h : Uses f e) : Names f e := by cases e <;> first | exact h | exact h.elim

/-- The part of the invariant on a live transaction. -/
structure TInv (s : S) (t : T) (a : A) (sc : List Nat) (sl : Bool) (cur : Nat) : Prop where
  chain : Chain t.savedDir sc t.log cur s.disk
  lt : ∀ e ∈ t.log, ∀ f, Names f e → f < s.next
  refs : ∀ e ∈ t.log, ∀ f, Uses f e → f ∈ t.refs
  loads : ∀ o n, .load o n ∈ t.log → (o ∈ t.refs ∧ o ≠ cur) ∨ (s.pending ≠ [] ∧ o = cur)
  free : ∀ f, s.marked f = true → f ≠ t.savedDir ∧ ∀ e ∈ t.log, ¬ Names f e
  pend : (s.pending = [] ∧ s.dir = cur) ∨
    ∃ h n, s.pending = [(h, n)] ∧ s.dir = n ∧ (h, cur) ∈ s.handles ∧ n ≠ cur ∧ n ≠ t.savedDir ∧ s.disk n = none ∧
      .load cur n ∈ t.log ∧ (∀ e ∈ t.log, ¬ Uses n e) ∧ ∀ k, .load n k ∉ t.log
  olds : a.left = false → ∀ f, s.disk f ≠ none → f = cur ∨ s.marked f = true ∨ ∃ n, .load f n ∈ t.log
  news : sl = false → ∀ f, s.disk f ≠ none → f = t.savedDir ∨ s.marked f = true ∨ ∃ o, .load o f ∈ t.log
  sdlt : t.savedDir < s.next

structure Inv (s : S) (a : A) (cur : Nat) : Prop where
  handles : ∀ p ∈ s.handles, p.2 = cur
  disk : s.disk cur = some a.cont
  opened : ∀ f, needed s f = true → s.disk f ≠ none
  marked : ∀ f, s.marked f = true → f ≠ cur ∧ f ≠ s.dir ∧ f < s.next
  gone : ∀ f, s.marked f = true → needed s f = false → s.disk f = none
  lt : ∀ f, s.disk f ≠ none → f < s.next
  dirlt : s.dir < s.next
  idle : s.txn = none → s.pending = [] ∧ s.dir = cur ∧ a.saved = none ∧
    (a.left = false → ∀ f, s.disk f ≠ none → f = cur ∨ s.marked f = true)
  live : ∀ t, s.txn = some t → ∃ sc sl, a.saved = some (sc, sl) ∧ TInv s t a sc sl cur

theorem inv_init : Inv init A.init 0 where
  handles := by intro p h; cases h
  disk := rfl
  opened := by intro f h; rw [needed_iff] at h; rcases h with ⟨_, h⟩ | h | h <;> cases h
  marked := by intro f h; cases h
  gone := by intro f h; cases h
  lt := by intro f h; simp only [init] at h ⊢; split at h <;> first | omega | exact absurd rfl h
  dirlt := Nat.one_pos
  idle := fun _ => ⟨rfl, rfl, rfl, fun _ f h => by
    simp only [init] at h; split at h
    · exact Or.inl ‹_›
    · exact absurd rfl h⟩
  live := by intro t h; cases h

theorem file_cur {s : S} {a cur h f} (I : Inv s a cur) (hf : fileOf s h = some f) : f = cur ∧ (h, f) ∈ s.handles := by
  unfold fileOf at hf
  cases hp : s.handles.find? (·.1 == h) with
  | none => rw [hp] at hf; cases hf
  | some p =>
    rw [hp] at hf
    have hm := List.mem_of_find?_eq_some hp
    have he := List.find?_some hp
    simp only [Option.map_some, Option.some.injEq, beq_iff_eq] at hf he
    subst hf he
    exact ⟨I.handles p hm, hm⟩

/-- Fewer references: files nobody needs are closed. -/
theorem inv_reap {s s' : S} {a cur} (I : Inv s a cur) (hd : s'.disk = s.disk) (hdir : s'.dir = s.dir)
    (hm : s'.marked = s.marked) (ht : s'.txn = s.txn) (hp : s'.pending = s.pending) (hn : s'.next = s.next)
    (hh : ∀ p, p ∈ s'.handles → p ∈ s.handles) (hq : ∀ p, p ∈ s'.pinned → p ∈ s.pinned)
    (hk : ∀ h n, s.pending = [(h, n)] → (h, cur) ∈ s.handles → (h, cur) ∈ s'.handles) : Inv (reap s') a cur := by
  have hless : ∀ f, (reap s').disk f ≠ none → s.disk f ≠ none := by
    intro f h
    simp only [reap, hd] at h
    split at h
    · exact absurd rfl h
    · exact h
  have hsame : ∀ f, s.marked f = false → (reap s').disk f = s.disk f := by
    intro f h
    simp only [reap, hm, h, Bool.false_and, hd]
    rfl
  have hneed : ∀ f, needed (reap s') f = needed s' f := fun _ => rfl
  have hcurm : s.marked cur = false := by
    cases h : s.marked cur with
    | false => rfl
    | true => exact absurd rfl (I.marked cur h).1
  have hneeds : ∀ f, needed s' f = true → needed s f = true := by
    intro f h
    rw [needed_iff] at h ⊢
    unfold refsOf at h ⊢
    rw [ht] at h
    rcases h with ⟨k, h⟩ | h | h
    · exact Or.inl ⟨k, hh _ h⟩
    · exact Or.inr (Or.inl h)
    · exact Or.inr (Or.inr (hq _ h))
  refine ⟨fun p h => I.handles p (hh p h), ?_, ?_, ?_, ?_, ?_, ?_, ?_, ?_⟩
  · rw [hsame _ hcurm]; exact I.disk
  · intro f h
    rw [hneed] at h
    simp only [reap, h, Bool.not_true, Bool.and_false, hd]
    exact I.opened f (hneeds f h)
  · intro f h
    have := I.marked f (by rw [← hm]; exact h)
    simpa only [reap, hdir, hn] using this
  · intro f h h'
    rw [hneed] at h'
    have : s'.marked f = true := h
    simp only [reap, this, h', Bool.not_false, Bool.and_true, if_true]
  · intro f h
    have := I.lt f (hless f h)
    simpa only [reap, hn] using this
  · simpa only [reap, hdir, hn] using I.dirlt
  · intro h
    obtain ⟨h1, h2, h3, h4⟩ := I.idle (by rw [← ht]; exact h)
    refine ⟨by rw [← h1]; exact hp, by rw [← h2]; exact hdir, h3, fun hl f hf => ?_⟩
    rcases h4 hl f (hless f hf) with e | e
    · exact Or.inl e
    · exact Or.inr (by rw [← hm] at e; exact e)
  · intro t h
    obtain ⟨sc, sl, hs, TI⟩ := I.live t (by rw [← ht]; exact h)
    refine ⟨sc, sl, hs, ?_⟩
    refine ⟨?_, ?_, TI.refs, ?_, ?_, ?_, ?_, ?_, ?_⟩
    · apply chain_congr _ TI.chain
      intro f hf
      apply hsame
      cases hmf : s.marked f with
      | false => rfl
      | true =>
        rcases hf with e | ⟨e, he, hu⟩
        · rw [e, hcurm] at hmf; cases hmf
        · exact absurd (names_of_uses hu) ((TI.free f hmf).2 e he)
    · intro e he f hf
      have := TI.lt e he f hf
      simpa only [reap, hn] using this
    · intro o n ho
      have := TI.loads o n ho
      simpa only [reap, hp] using this
    · intro f hf
      exact TI.free f (by rw [← hm]; exact hf)
    · rcases TI.pend with ⟨e1, e2⟩ | ⟨h, n, e1, e2, e3, e4, e5, e6, e7, e8, e9⟩
      · exact Or.inl ⟨hp.trans e1, hdir.trans e2⟩
      · refine Or.inr ⟨h, n, hp.trans e1, hdir.trans e2, hk h n e1 e3, e4, e5, ?_, e7, e8, e9⟩
        cases hx : (reap s').disk n with
        | none => rfl
        | some c => exact absurd e6 (hless n (by rw [hx]; exact fun h => by cases h))
    · intro hl f hf
      rcases TI.olds hl f (hless f hf) with e | e | e
      · exact Or.inl e
      · exact Or.inr (Or.inl (by rw [← hm] at e; exact e))
      · exact Or.inr (Or.inr e)
    · intro hl f hf
      rcases TI.news hl f (hless f hf) with e | e | e
      · exact Or.inl e
      · exact Or.inr (Or.inl (by rw [← hm] at e; exact e))
      · exact Or.inr (Or.inr e)
    · simpa only [reap, hn] using TI.sdlt

end Verif.Redirect
