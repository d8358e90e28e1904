import Verif.Redirect.Steps

/-!
# Ends of transactions, and runs
-/

namespace Verif.Redirect

theorem inv_commit {s : S} {a cur t} (I : Inv s a cur) (ht : s.txn = some t) (hp : s.pending = []) :
    ∃ s', commitLog s t.log = some s' ∧ Inv (reap { s' with txn := none }) (a.step .commit) cur := by
  obtain ⟨sc, sl, hs, TI⟩ := I.live t ht
  have hl : ∀ o n, Entry.load o n ∈ t.log → o ∈ t.refs ∧ o ≠ cur := by
    intro o n ho
    rcases TI.loads o n ho with e | e
    · exact e
    · exact absurd hp e.1
  obtain ⟨m, hm, hi⟩ := commit_ok (s := s) t.log (fun o n ho => (needed_iff s o).mpr (Or.inr (Or.inl (by
    unfold refsOf; rw [ht]; exact (hl o n ho).1))))
  refine ⟨_, hm, ?_⟩
  have hdir : s.dir = cur := by
    rcases TI.pend with e | ⟨_, _, e, _⟩
    · exact e.2
    · rw [hp] at e; cases e
  let s1 : S := { s with marked := m, txn := none }
  show Inv (reap s1) _ cur
  have hmcur : m cur = false := by
    cases h : m cur with
    | false => rfl
    | true =>
      rcases (hi cur).mp h with e | ⟨n, e⟩
      · exact absurd rfl (I.marked cur e).1
      · exact absurd rfl (hl _ _ e).2
  have hless : ∀ f, (reap s1).disk f ≠ none → s.disk f ≠ none := by
    intro f h
    simp only [reap] at h
    split at h
    · exact absurd rfl h
    · exact h
  have hneeds : ∀ f, needed s1 f = true → needed s f = true := by
    intro f h
    rw [needed_iff] at h ⊢
    rcases h with h | h | h
    · exact Or.inl h
    · cases h
    · exact Or.inr (Or.inr h)
  refine ⟨I.handles, ?_, ?_, ?_, ?_, fun f h => I.lt f (hless f h), I.dirlt, ?_, (by intro t h; cases h)⟩
  · simp only [reap]
    rw [show s1.marked cur = false from hmcur]
    exact I.disk
  · intro f h
    have h : needed s1 f = true := h
    simp only [reap, h, Bool.not_true, Bool.and_false]
    exact I.opened f (hneeds f h)
  · intro f h
    rcases (hi f).mp h with e | ⟨n, e⟩
    · exact I.marked f e
    · refine ⟨(hl f n e).2, ?_, TI.lt _ e f (Or.inl rfl)⟩
      show f ≠ s.dir
      rw [hdir]; exact (hl f n e).2
  · intro f h h'
    have h1 : s1.marked f = true := h
    have h2 : needed s1 f = false := h'
    simp only [reap, h1, h2, Bool.not_false, Bool.and_true, if_true]
  · intro _
    refine ⟨hp, hdir, rfl, fun hlf f hf => ?_⟩
    rcases TI.olds hlf f (hless f hf) with e | e | e
    · exact Or.inl e
    · exact Or.inr ((hi f).mpr (Or.inl e))
    · exact Or.inr ((hi f).mpr (Or.inr e))

theorem inv_abort {s : S} {a cur t} (I : Inv s a cur) (ht : s.txn = some t) (hp : s.pending = []) :
    ∃ s', undoLog s t.log = some s' ∧ Inv (reap { s' with txn := none, dir := t.savedDir }) (a.step .abort) t.savedDir := by
  obtain ⟨sc, sl, hs, TI⟩ := I.live t ht
  obtain ⟨s', hu, U⟩ := undo_ok t.log TI.chain I.handles ht TI.refs
    (fun o f hm h => (TI.free f hm).2 _ h (Or.inr rfl))
  refine ⟨s', hu, ?_⟩
  have ha : a.step .abort = ⟨sc, sl, none⟩ := by simp only [A.step, hs]
  rw [ha]
  let s1 : S := { s' with txn := none, dir := t.savedDir }
  show Inv (reap s1) _ _
  have hms : ∀ f, s'.marked f = true → f ≠ t.savedDir ∧ f < s.next := by
    intro f h
    rcases U.marks f h with e | ⟨o, e⟩
    · exact ⟨(TI.free f e).1, (I.marked f e).2.2⟩
    · exact ⟨chain_load_ne _ TI.chain e, TI.lt _ e f (Or.inr rfl)⟩
  have hmsd : s1.marked t.savedDir = false := by
    cases h : s1.marked t.savedDir with
    | false => rfl
    | true => exact absurd rfl (hms _ h).1
  have hless : ∀ f, (reap s1).disk f ≠ none → s'.disk f ≠ none := by
    intro f h
    simp only [reap] at h
    split at h
    · exact absurd rfl h
    · exact h
  have hdsd : (reap s1).disk t.savedDir = some sc := by
    simp only [reap, hmsd]
    exact U.disk
  refine ⟨U.handles, hdsd, ?_, ?_, ?_, ?_, ?_, ?_, (by intro t h; cases h)⟩
  · intro f h
    have h : needed s1 f = true := h
    have h0 := h
    rw [needed_iff] at h
    rcases h with ⟨k, h⟩ | h | h
    · rw [show f = t.savedDir from U.handles _ h, hdsd]
      exact fun h => by cases h
    · cases h
    · simp only [reap, h0, Bool.not_true, Bool.and_false]
      have hpin : f ∈ s.pinned := by rw [← U.pinned]; exact h
      exact U.pins f hpin (I.opened f ((needed_iff s f).mpr (Or.inr (Or.inr hpin))))
  · intro f h
    exact ⟨(hms f h).1, (hms f h).1, by rw [← U.next] at hms; exact (hms f h).2⟩
  · intro f h h'
    have h1 : s1.marked f = true := h
    have h2 : needed s1 f = false := h'
    simp only [reap, h1, h2, Bool.not_false, Bool.and_true, if_true]
  · intro f h
    have := I.lt f (U.less f (hless f h))
    rw [← U.next] at this
    exact this
  · have := TI.sdlt
    rw [← U.next] at this
    exact this
  · intro _
    refine ⟨U.pending.trans hp, rfl, rfl, fun hl f hf => ?_⟩
    rcases TI.news hl f (U.less f (hless f hf)) with e | e | ⟨o, e⟩
    · exact Or.inl e
    · exact Or.inr (U.keeps f e)
    · rcases U.news o f e with e | e
      · exact Or.inr e
      · exact absurd e (hless f hf)

theorem pend_h {s : S} {a cur t h n k} (I : Inv s a cur) (ht : s.txn = some t)
    (hf : s.pending.find? (·.1 == h) = some (k, n)) : s.pending = [(h, n)] := by
  obtain ⟨sc, sl, _, TI⟩ := I.live t ht
  rcases TI.pend with ⟨e, _⟩ | ⟨k', n', e, _⟩
  · rw [e] at hf; cases hf
  · rw [e] at hf ⊢
    have h1 := List.mem_of_find?_eq_some hf
    have h2 := List.find?_some hf
    simp only [List.mem_singleton] at h1
    cases h1
    simp only [beq_iff_eq] at h2
    rw [h2]

theorem step_inv {s : S} {a cur e r} (I : Inv s a cur) (hs : step s e = some r)
    (h1 : ∀ s' x, r = some (s', x) → s'.pending.length ≤ 1) :
    ∃ s' x cur', r = some (s', x) ∧ Inv s' (a.step e) cur' := by
  cases e with
  | openH h =>
    simp only [step] at hs
    split at hs
    · cases hs
    · split at hs
      · next c hd =>
        cases hs
        exact ⟨_, _, cur, rfl, inv_open I (by rw [hd]; exact fun h => by cases h)⟩
      · cases hs; exact ⟨_, _, cur, rfl, I⟩
  | closeH h =>
    simp only [step] at hs
    split at hs
    · next hc =>
      cases hs
      refine ⟨_, _, cur, rfl, inv_reap I rfl rfl rfl rfl rfl rfl (fun p hp => (List.mem_filter.mp hp).1)
        (fun p hp => hp) ?_⟩
      intro k n hp hm
      refine List.mem_filter.mpr ⟨hm, ?_⟩
      simp only [Bool.and_eq_true, Bool.not_eq_true', hp, List.any_cons, List.any_nil, Bool.or_false] at hc
      simpa [bne] using hc.2
    · cases hs
  | begin =>
    simp only [step] at hs
    split at hs
    · cases hs
    · next hn =>
      cases hs
      exact ⟨_, _, cur, rfl, inv_begin I (by cases h : s.txn with | none => rfl | some t => rw [h] at hn; simp at hn)⟩
  | put h r =>
    simp only [step] at hs
    split at hs
    · next t f ht hf =>
      obtain ⟨e, hm⟩ := file_cur I hf
      subst e
      rw [I.disk] at hs
      cases hs
      exact ⟨_, _, f, rfl, inv_put I ht⟩
    · cases hs
  | loadBegin h =>
    simp only [step] at hs
    split at hs
    · next t f ht hf =>
      obtain ⟨e, hm⟩ := file_cur I hf
      subst e
      split at hs
      · cases hs
        have := h1 _ _ rfl
        have hp : s.pending = [] := by
          cases hp : s.pending with
          | nil => rfl
          | cons p l => rw [hp] at this; simp at this
        refine ⟨_, _, f, rfl, ?_⟩
        have := inv_names (h := h) (a' := a) (d' := s.disk) I ht hm (Or.inl ⟨hp, rfl, rfl⟩)
        unfold named at this
        unfold loadNames
        rw [hp]
        exact this
      · cases hs; exact ⟨_, _, f, rfl, I⟩
      · next hd => rw [I.disk] at hd; cases hd
    · cases hs
  | loadEnd h rows =>
    simp only [step] at hs
    split at hs
    · next t f k n ht hf hp =>
      obtain ⟨e, hm⟩ := file_cur I hf
      subst e
      have hp := pend_h I ht hp
      obtain ⟨I', hn⟩ := inv_end (rows := rows) I ht hp
      have hfil : s.pending.filter (·.2 != n) = [] := by rw [hp]; simp
      rw [redirect_ok (by exact hn)] at hs
      cases hs
      refine ⟨_, _, n, rfl, ?_⟩
      rw [hfil]
      exact I'
    · cases hs
  | loadFail h part =>
    simp only [step] at hs
    split at hs
    · next t f k n ht hf hp =>
      obtain ⟨e, hm⟩ := file_cur I hf
      subst e
      have hp := pend_h I ht hp
      have I1 := inv_names (h := h) (a' := { a with left := a.left || part.isSome }) (d' := upd s.disk n part) I ht hm
        (Or.inr ⟨h, n, part, hp, rfl, rfl⟩)
      obtain ⟨I', hn⟩ := inv_end (rows := []) I1 rfl rfl
      have hfil : s.pending.filter (·.2 != n) = [] := by rw [hp]; simp
      rw [redirect_ok (by exact hn)] at hs
      cases hs
      refine ⟨_, _, s.next, rfl, ?_⟩
      rw [hfil]
      exact I'
    · cases hs
  | pin =>
    simp only [step] at hs
    split at hs
    · cases hs; exact ⟨_, _, cur, rfl, inv_pin I⟩
    · cases hs
  | unpin =>
    simp only [step] at hs
    cases hs
    exact ⟨_, _, cur, rfl, inv_reap I rfl rfl rfl rfl rfl rfl (fun p hp => hp) (by intro p hp; cases hp) (fun _ _ _ h => h)⟩
  | commit =>
    simp only [step] at hs
    split at hs
    · next t ht =>
      split at hs
      · next hp =>
        obtain ⟨s', hc, I'⟩ := inv_commit I ht (by simpa using hp)
        rw [hc] at hs
        cases hs
        exact ⟨_, _, cur, rfl, I'⟩
      · cases hs
    · cases hs
  | abort =>
    simp only [step] at hs
    split at hs
    · next t ht =>
      split at hs
      · next hp =>
        obtain ⟨s', hc, I'⟩ := inv_abort I ht (by simpa using hp)
        rw [hc] at hs
        cases hs
        exact ⟨_, _, t.savedDir, rfl, I'⟩
      · cases hs
    · cases hs

theorem run_inv : ∀ es {s : S} {a cur r}, Inv s a cur → OneLoader s es → run s es = some r →
    ∃ s' cur', r = some s' ∧ Inv s' (a.run es) cur'
  | [], s, a, cur, r, I, _, h => by
    cases h
    exact ⟨s, cur, rfl, I⟩
  | e :: es, s, a, cur, r, I, ho, h => by
    simp only [run] at h
    simp only [OneLoader] at ho
    cases hs : step s e with
    | none => rw [hs] at h; cases h
    | some q =>
      rw [hs] at h ho
      obtain ⟨s', x, cur', e', I'⟩ := step_inv I hs (by intro s' x e; subst e; exact ho.1)
      subst e'
      exact run_inv es I' ho.2 h

end Verif.Redirect
